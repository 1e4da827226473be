import Verif.Model.Config

/- Specification vocabulary for the configuration (C40). -/
namespace Jrystal

/-- The settings a user finds in the table of defaults, in alphabetical order. -/
def Spec.documentedDefaults : List (String × CfgVal) :=
  [("band_structure_empty_bands", .int 8), ("band_structure_epoch", .int 5000),
   ("convergence_condition", .float (1 / 10000)), ("convergence_window_size", .int 20),
   ("crystal", .str "diamond"), ("crystal_file_path_path", .null), ("cutoff_energy", .int 100),
   ("empty_bands", .int 8), ("epoch", .int 5000), ("eps", .float (1 / 100000000)),
   ("ewald_args", .dict [("ewald_eta", .float (1 / 10)), ("ewald_cutoff", .float 20000)]),
   ("freq_mask_method", .str "spherical"), ("grid_sizes", .int 64), ("jax_debug_nans", .bool false),
   ("jax_enable_x64", .bool true), ("k_grid_sizes", .int 3), ("k_path_file", .null),
   ("k_path_fine_tuning", .bool true), ("k_path_fine_tuning_epoch", .int 300),
   ("k_path_special_points", .null), ("num_kpoints", .int 60), ("occupation", .str "uniform"),
   ("optimizer", .str "adam"),
   ("optimizer_args", .dict [("learning_rate", .float (1 / 100)), ("b1", .float (9 / 10)), ("b2", .float (99 / 100))]),
   ("parallel_over_k_mesh", .bool false), ("parallel_over_k_path", .bool true),
   ("pseudopotential_file_dir", .null), ("save_dir", .null), ("scheduler", .null), ("seed", .int 123),
   ("smearing", .float (1 / 1000)), ("spin", .int 0), ("spin_restricted", .bool true),
   ("use_pseudopotential", .bool false), ("verbose", .bool true), ("xc", .str "lda_x"),
   ("xla_preallocate", .bool true)]

end Jrystal
