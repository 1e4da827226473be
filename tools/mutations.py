M = []
def m(id, file, d, old, new, claim, **kw):
  M.append(dict(id=id, file=file, old=old, new=new, claim=claim, **kw) | {"def": d})

F = "Model/FftSize.lean"
m("M001", F, "fftFactor", "(f : Int) - n ≥ 0", "(f : Int) - n > 0", "C01: returned size is the least table entry >= n")
m("M002", F, "fftFactor", "if n > 2048", "if n ≥ 2048", "C01: 2048 is accepted")
m("M003", F, "cufftFactors", "18, 20,\n", "18, 20, 22,\n", "C01: every size has only factors 2,3,5,7")
m("M004", F, "cufftFactors", "140, 144, 147", "140, 147", "C01: returned size is the least 7-smooth number >= n")
m("M005", F, "properGridSize", "| .scalar n => [n, n, n].mapM", "| .scalar n => [n, n].mapM", "C01: scalar repeated three times")
G = "Model/Grid.lean"
m("M010", G, "sfreq", "if j < (n - 1) / 2 + 1 then", "if j < n / 2 + 1 then", "C02: signed frequency convention (Nyquist negative)")
m("M011", G, "reciprocalVectors", "(2 * Real.pi) • (A⁻¹)ᵀ", "(2 * Real.pi) • A⁻¹", "C02: reciprocal vectors dual to the cell")
m("M012", G, "reciprocalVectors", "(2 * Real.pi) • (A⁻¹)ᵀ", "(A⁻¹)ᵀ", "C02: factor 2 pi")
m("M013", G, "gVectors", "vectorGrid (reciprocalVectors A) n false", "vectorGrid (reciprocalVectors A) n true", "C02: integer combinations")
m("M014", G, "rVectors", "vectorGrid A n true", "vectorGrid Aᵀ n true", "C02: real-space grid uses rows")
m("M015", G, "sphericalMask", "≤ cutoff * 2", "< cutoff * 2", "C03: inclusive cutoff")
m("M016", G, "sphericalMask", "≤ cutoff * 2", "≤ cutoff", "C03: energy is half the square")
m("M017", G, "cubicMask1", "!(inSlice size (upper + 1) lower j)", "!(inSlice size upper lower j)", "C04: kept frequencies")
m("M018", G, "cubicMask1", "let lower : ℤ := half (-gmax)", "let lower : ℤ := -(half gmax)", "C04: kept frequencies (precedence)")
m("M019", G, "cubicMask", "cubicMask1 (n 0) (k 0) && cubicMask1 (n 1) (k 1)", "cubicMask1 (n 0) (k 0) && cubicMask1 (n 1) (k 0)", "C04: product over the three axes", note="swapped index")
m("M020", G, "estimateMaxCutoffEnergy", "^ 2 / 2 * (if mask k then 1 else 0)", "^ 2 / 2 * (if mask k then 0 else 1)", "C06")
m("M021", G, "estimateMaxCutoffEnergy", "^ 2 / 2 * (if mask k", "^ 2 * (if mask k", "C06")
m("M022", G, "g2cellVectors", "((aᵀ * a)⁻¹ * aᵀ * b)⁻¹", "((aᵀ * a)⁻¹ * aᵀ * b)", "C07")
m("M023", G, "r2cellVectors", "(dᵀ * d)⁻¹ * dᵀ * gridMatrix r", "dᵀ * gridMatrix r", "C07")
m("M024", G, "monkhorstPack", "((i d : ℕ) : ℝ) + 0.5)", "((i d : ℕ) : ℝ) + 1)", "C08: symmetric mesh")
m("M025", G, "kVectors", "monkhorstPack n i l * reciprocalVectors A l d", "monkhorstPack n i l * reciprocalVectors A d l", "C08: Cartesian coordinates")
m("M026", G, "translationVectors", "(translationCount A cutoff).toNat) false", "(translationCount A cutoff).toNat) true", "C09: integer combinations")
H = "Model/HalfFreq.lean"
m("M030", H, "halfRange", "posSize := upper + 1", "posSize := upper", "C05")
m("M031", H, "halfRange", "let negStart := lower + size", "let negStart := lower + size - 1", "C05")
m("M032", H, "blockOrder", "![true, true, false], ![true, true, true]]", "![true, true, false]]", "C05: every block is written")
m("M033", H, "halfPadTo", "o i + if b i then (halfRange (n i)).posSize else 0", "o i", "C05: block offsets")
P = "Model/Proj.lean"
m("M040", P, "pushdown", "fun i => max (x i - lam) 0", "fun i => max (x i - lam) (-1)", "C17: lower bound")
m("M041", P, "pushdown", "if k = 0 then (S - s) / n", "if k = 0 then (S - s) / (n + 1)", "C17: sum")
m("M042", P, "pushup", "fun i => min (x i + lam) 1", "fun i => x i + lam", "C17: upper bound")
m("M043", P, "pushup", "let xs := (sortAsc x).reverse", "let xs := sortAsc x", "C17: sum")
m("M044", P, "proj", "if ∑ i, x i ≤ s then pushup s x else pushdown s x", "if ∑ i, x i ≤ s then pushdown s x else pushup s x", "C17")
m("M045", P, "pushdown", "(S - s - cumsum xs i) ((n : K) - i - 1)", "(S - s - cumsum xs i) ((n : K) - i)", "C17: sum")
O = "Model/Occupation.lean"
m("M050", O, "uniformOcc", "inSlice n 0 ((ne - spin) / 2) b then 1 / (nk : K)", "inSlice n 0 ((ne + spin) / 2) b then 1 / (nk : K)", "C19: spin channels")
m("M051", O, "uniformOcc", "inSlice n 0 ((ne + spin) / 2) b then 1 / (nk : K)", "inSlice n 0 ((ne + spin) / 2) b then 1", "C19: total")
m("M052", O, "gammaOcc", "(k : ℕ) = 0 && inSlice n 0 ((ne + spin) / 2)", "inSlice n 0 ((ne + spin) / 2)", "C19: gamma only")
m("M053", O, "simplexProjector", "let mUp : ℤ := (ne + spin) / 2 * nk", "let mUp : ℤ := (ne + spin) / 2", "C18: total")
m("M054", O, "simplexProjector", "proj (ravel fun k b => sigmoid (paramDown k b)) (mDown : ℝ) i / (nk : ℝ)", "proj (ravel fun k b => sigmoid (paramDown k b)) (mDown : ℝ) i", "C18: bounds and total")
m("M055", O, "checkSpinNumber", "if ne % 2 ≠ spin % 2", "if ne % 2 = spin % 2", "C20/C46: parity check")
m("M056", O, "idemChannel", "(qr.q w) i j * (qr.q w)ᵀ j i", "(qr.q w) i j", "C20: bounds")
m("M057", O, "idempotentOcc", "idemChannel qr p.up k b + idemChannel qr p.down k b) / (nk : ℝ)", "idemChannel qr p.up k b + idemChannel qr p.down k b)", "C20: total")
m("M058", O, "occupation", "else if method = \"gamma\" then\n    match p", "else if method = \"Gamma\" then\n    match p", "C21: dispatch")
m("M059", O, "driverBands", "(ne + 1) / 2 + empty", "ne / 2 + empty", "C21: number of bands")
m("M05a", O, "occParamInit", "(idempotentParamInit draw nk nb ne spin true)", "(idempotentParamInit draw nk nb ne spin restricted)", "C20/C21: driver total of idempotent method (disagreement theorem)")
C = "Model/Convergence.lean"
m("M060", C, "Checker.push", "(h1.length : ℤ) > c.windowSize", "(h1.length : ℤ) ≥ c.windowSize", "C36: window length")
m("M061", C, "Checker.push", "then h1.tail", "then h1.dropLast", "C36: window is the last values")
m("M062", C, "Checker.check", "(c'.history.length : ℤ) < c.windowSize", "(c'.history.length : ℤ) ≤ c.windowSize", "C36: enough history")
m("M063", C, "Checker.check", "fltLt (npStd c'.history) c.threshold", "fltLt (npStd c.history) c.threshold", "C36: current value is part of the window")
m("M064", C, "Checker.reset", "⟨c.windowSize, c.threshold, []⟩\n\n/-- A call", "⟨c.windowSize, c.threshold, c.history⟩\n\n/-- A call", "C36: reset")
m("M065", C, "npStd", "/ xs.length))", "/ (xs.length - 1)))", "C36: population standard deviation")
m("M066", C, "loopBody", "s.updates + 1⟩", "s.updates⟩", "C37: number of updates")
m("M067", C, "loopFrom", "if s'.converged then s' else", "if s'.converged then s else", "C37: returned iterate")
m("M068", C, "loopFrom", "loopFrom grad energy temp k (i + 1) s'", "loopFrom grad energy temp k i s'", "C37/C38: step index passed to schedule")
m("M069", C, "exponentialDecay", "if rate < 1 then max v endv else min v endv", "v", "C38: never below the target")
m("M06a", C, "temperature", "exponentialDecay 100 (epoch / 2)", "exponentialDecay 100 epoch", "C38: target reached at half of the run")
E = "Model/Entropy.lean"
m("M070", E, "fermiDirac", "-∑ s, ∑ k, ∑ b,", "∑ s, ∑ k, ∑ b,", "C22: sign")
m("M071", E, "fermiDirac", "((3 - (ns : ℝ)) / nk - occ s k b) * Real.log", "(3 - (ns : ℝ)) / nk * Real.log", "C22: symmetric")
m("M072", E, "fermiDirac", "eps + (3 - (ns : ℝ)) / nk - occ s k b", "eps + 1 - occ s k b", "C22: symmetric for k meshes")
B = "Model/Band.lean"
m("M080", B, "bandNormcons", "let r := reshapeF [per, util, K, nb] [N * K, nb] a", "let r := reshapeC [per, util, K, nb] [N * K, nb] a", "C39")
m("M081", B, "chunk", "reshapeC [N] [dev, N / dev]", "reshapeF [N] [dev, N / dev]", "C39")
m("M082", B, "fineTune", "eig (fine p k) k :: fineTune fine eig (fine p k) ks", "eig p k :: fineTune fine eig (fine p k) ks", "C39: eigenvalues use own parameters")
m("M083", B, "bandAllElectrons", "let r := reshapeF [per, devices, ns, 1, nb] [N, ns, nb] a", "let r := reshapeF [devices, per, ns, 1, nb] [N, ns, nb] a", "C39")
U = "Model/Utils.lean"
m("M091", U, "vmapstack", "if as.length ≠ times", "if as.length < times", "C54: args length")
m("M092", U, "mapOverAtoms", "(List.range a.length)", "(List.range (a.length - 1))", "C42: every atom")
m("M093", U, "listIndex", "match arr[i]? with", "match arr.reverse[i]? with", "C42: order")
m("M094", U, "padTo", "if InShape a.shape idx then a.get idx else 0", "a.get idx", "C42: zeros elsewhere")
m("M095", U, "stackWithPadding", "b.shape.length != ndim", "b.shape.length < ndim", "C42: mixed ranks rejected")
m("M096", U, "maxShape", ".foldl max 0", ".headD 0", "C42: common shape")
m("M097", U, "poolResult", "(List.range tasks.length)", "sched", "C42: order irrespective of schedule")
K = "Model/Const.lean"

m("M027", "Model/Grid.lean", "translationCount", "⌈cutoff / (Real.sqrt (normSq3 (fun d => ∑ i, A i d))) ^ 2⌉", "⌊cutoff / (Real.sqrt (normSq3 (fun d => ∑ i, A i d))) ^ 2⌋", "C09: number of translations")
m("M098", U, "preCalcTasks", "(rs.zip (bs.zip ls)).map fun t", "(rs.zip (bs.zip ls)).reverse.map fun t", "C42: atom order")
m("M0a0", K, "bohr2angstrom", "529177249 / 1000000000", "529177 / 1000000", "C53: reciprocal constants")
CF = "Model/Config.lean"
m("M100", CF, "Cfg.find", "(fun e => e.1 == key) c).map", "(fun e => e.1 == key) c.reverse).map", "C52: first entry of a key (equivalent for distinct keys)")
m("M101", CF, "Cfg.set", "if e.1 == k then (k, v) :: c else", "if e.1 == k then (k, v) :: e :: c else", "C52: parse_args keeps the keys")
m("M102", CF, "getConfig", '(config.set "band_structure_empty_bands" v)', '(config.set "empty_bands" v)', "C40: default number of bands of the band structure")
m("M103", CF, "getConfig", "| .ok .null => match config.attr \"empty_bands\" with", "| .ok (.int 0) => match config.attr \"empty_bands\" with", "C40")
m("M104", CF, "mainDispatch", "if v.truthy then .bandNormcons else .bandAllElectrons", "if v.truthy then .bandAllElectrons else .bandNormcons", "C52: dispatch")
m("M105", CF, "mainDispatch", "mode.getD \"energy\"", "mode.getD \"band\"", "C52: default mode")
m("M106", CF, "convertLike", "| .bool _ => some (.bool (s != \"\"))", "| .bool _ => some (.bool (s == \"True\"))", "C52: string False gives True (disagreement)")
m("M107", CF, "parsePairs", "(ns.set key v) rest", "(ns.set name v) rest", "C52: abbreviated option names", tightened=["parseArgs_abbreviation"], note="survived a first attempt; the named theorem was added")
m("M108", CF, "parseArgs", ".ok (ns.foldl (fun c e => c.set e.1 e.2) config)", ".ok config", "C52: options take effect")
m("M109", CF, "selectPseudopotential", "if !u.truthy then .error .assertionError\n    else match", "if u.truthy then .error .assertionError\n    else match", "C40: pseudopotential needs the switch")
m("M10a", CF, "selectMask", 'if s = "cubic" then .ok .cubic', 'if s = "cubic" then .ok .spherical', "C40")
m("M10b", CF, "createOptimizer", "args.filter fun e => e.1 != \"learning_rate\"", "args", "C40: learning rate passed once")
m("M10c", CF, "savez", '("arr_" ++ Nat.repr i, a)', '("arr_" ++ Nat.repr (i + 1), a)', "C41: cache round trip")
m("M10d", CF, "readArrays", "| .ok l => .ok (e.2 :: l)", "| .ok l => .ok (l ++ [e.2])", "C41: order of the arrays")
m("M10e", CF, "FS.write", "if q = p then some n else fs q", "some n", "C41: other files untouched")
m("M10f", CF, "saveBetaSbt", "| some _ => .error .unboundLocal\n  | none => savez", "| some f => savez fs (cacheDir pkg) f output\n  | none => savez", "C41: explicit file name (disagreement)")
CR = "Model/Crystal.lean"
m("M110", CR, "Crystal.scaledPositions", "c.positions * (c.cell⁻¹)ᵀ\n", "c.positions * c.cell⁻¹\n", "C46: scaled positions (disagreement)")
m("M111", CR, "Crystal.vol", "|c.cell.det|", "c.cell.det", "C46: volume positive")
m("M112", CR, "Crystal.numElectron", "∑ a, c.charges a", "∑ a, c.charges a - c.spin", "C46")
m("M113", CR, "Crystal.fromAse", "(∑ i, a.numbers i) % 2", "0", "C46: default spin")
m("M114", CR, "Crystal.fromAse", "⟨a.numbers, (angstrom2bohr : ℝ) • a.positions, (angstrom2bohr : ℝ) • a.cell,", "⟨a.numbers, a.positions, (angstrom2bohr : ℝ) • a.cell,", "C57: units")
m("M115", CR, "createCrystal", "| .error e => .error e\n  | .ok _ => .ok c", "| .error _ => .ok c\n  | .ok _ => .ok c", "C46: parity rejected")
m("M116", CR, "createGridsSizes", "| .ok k => .ok (g, k)", "| .ok k => .ok (k, g)", "C01")
m("M117", CR, "getKPath", "b • aseCartesianKpts (bandpath acell) acell", "aseCartesianKpts (bandpath acell) acell", "C47: units of the path")
m("M118", CR, "getKPath", "(2 : Matrix _ _ ℝ)) * (Real.pi • 1)", "(1 : Matrix _ _ ℝ)) * (Real.pi • 1)", "C47: 2 pi")
FF = "Model/Fft.lean"
m("M120", FF, "fftn", "Complex.exp (-(2 * Real.pi * Complex.I *\n", "Complex.exp ((2 * Real.pi * Complex.I *\n", "C15: transform pair")
m("M121", FF, "ifftn", " / (gridCount n : ℂ)\n", "\n", "C15: normalisation")
m("M122", FF, "gridCount", "∏ i, n i", "∑ i, n i", "C15")
PW = "Model/Planewave.lean"
m("M130", PW, "idxList", "(List.finRange (n 2)).map fun c => mkIdx a b c", "(List.finRange (n 2)).map fun c => mkIdx a b c).tail", "C06: all positions") if False else None
m("M131", PW, "maskList", "(idxList n).filter mask", "(idxList n).filter fun k => !mask k", "C10: only masked positions")
m("M132", PW, "scatterMask", "(fun _ => 0)\n", "(fun _ => 1)\n", "C10: zero outside the mask")
m("M133", PW, "paramShape", "if restricted then 1 else 2", "if restricted then 2 else 1", "C10: spin axis")
m("M134", PW, "unitaryMatrix", "(p.re s k a b : ℂ) + Complex.I", "(p.re s k a b : ℂ) - Complex.I", "C11: coefficients of the parameters")
m("M135", PW, "waveGrid", "(gridCount n : ℝ) / Real.sqrt vol", "(gridCount n : ℝ) / vol", "C11/C12: normalised orbitals")
m("M136", PW, "absoluteSquare", "(conj z * z).re", "(z * z).re", "C13: density not negative")
m("M137", PW, "volume", "|A.det|", "A.det", "C46")
m("M138", PW, "densityGrid", "densityGridBands c vol s k b j * occ s k b", "densityGridBands c vol s k b j", "C13: density integrates to the occupation")
m("M139", PW, "waveToDensity", "absoluteSquare (w s p.1 p.2 j) * occ s p.1 p.2", "absoluteSquare (w s p.1 p.2 j)", "C13")
m("M13a", PW, "waveToDensityReciprocal", "fftn fun j => (waveToDensity w occ s j : ℂ)", "ifftn fun j => (waveToDensity w occ s j : ℂ)", "C14")
BR = "Model/Braket.lean"
m("M140", BR, "broadcastPairs", "else if ha : a = 1 then .ok ((List.finRange b).map fun i => (⟨0, by omega⟩, i))", "else if ha : a = 1 then .error .valueError", "C15: potential without spin axis")
m("M141", BR, "reciprocalBraket", "conj (bra p.1 k) * ket p.2 k", "bra p.1 k * ket p.2 k", "C15: Parseval")
m("M142", BR, "reciprocalBraket", "((1 / numGrids : ℝ) : ℂ) * ((vol / numGrids", "((vol / numGrids", "C15")
m("M143", BR, "realBraket", "((vol / ((a * gridCount n : ℕ) : ℝ) : ℝ) : ℂ)", "((vol / ((gridCount n : ℕ) : ℝ) : ℝ) : ℂ)", "C15: spin axis counted in the number of grid points (disagreement)", tightened=["realBraket_leading"], note="survived a first attempt; the named theorem was added")
m("M144", BR, "integralFactor", "vol / (gridCount n : ℝ) * (1 / (gridCount n : ℝ))", "vol / (gridCount n : ℝ)", "C33")
m("M145", BR, "bcLen", "else if a = 1 then .ok b else if b = 1 then .ok a else", "else if a = 1 then .ok b else", "C33: broadcasting")
m("M146", BR, "operatorLen", "| .lead m _ => bcLen nk m", "| .lead m _ => .ok m", "C33: length of the k axis")
m("M147", BR, "expectationFull", "operatorAt h k x *\n          bcGet (fun k' => ket s k' j) k x) * (f : ℂ)", "operatorAt h k x *\n          bcGet (fun k' => ket s k' i) k x) * (f : ℂ)", "C33: band indices")
m("M148", BR, "expectationDiag", "(∑ x, conj (bcGet (fun k' => bra s k' i) k x) * operatorAt h k x *\n          bcGet (fun k' => ket s k' i)", "(∑ x, bcGet (fun k' => bra s k' i) k x * operatorAt h k x *\n          bcGet (fun k' => ket s k' i)", "C33")
EN = "Model/Energy.lean"
m("M150", EN, "isOrigin", "(k i : ℕ) = 0)", "(k i : ℕ) = 1)", "C23: zero component")
m("M151", EN, "hartreeReciprocal", "if ks then out else out / 2", "if ks then out / 2 else out", "C23: factor one half")
m("M152", EN, "hartreeReciprocal", "let out := if isOrigin k then 0 else total / (gSq : ℂ)", "let out := total / (gSq : ℂ)", "C23: zero mean potential")
m("M153", EN, "hartreeReciprocal", "total / (gSq : ℂ)\n", "total / ((Real.sqrt gSq : ℝ) : ℂ)\n", "C23: Poisson equation")
m("M154", EN, "externalReciprocal", "-out * (gridCount n : ℂ) / (vol : ℂ)", "out * (gridCount n : ℂ) / (vol : ℂ)", "C24: attractive")
m("M155", EN, "externalReciprocal", "Complex.exp (-(Complex.I", "Complex.exp ((Complex.I", "C24: translation")
m("M156", EN, "kineticBands", "absoluteSquare (c s k b x)) / 2\n\n/-- `energy.kinetic` with", "absoluteSquare (c s k b x))\n\n/-- `energy.kinetic` with", "C25: one half")
m("M157", EN, "kineticEnergyOcc", "* occ s k b) / 2", "* occ s k b)", "C25")
m("M158", EN, "kineticOperator", "(∑ d, (g x d + kpts k d) ^ 2) / 2\n", "(∑ d, (g x d - kpts k d) ^ 2) / 2\n", "C25: k shift")
m("M159", EN, "xcEnergy", "e.re * vol / (gridCount n : ℝ)", "e.re * vol", "C26")
m("M15a", EN, "totalEnergy", ".ok (p.kin + p.ext + p.har + p.xc)", ".ok (p.kin + p.ext + p.har)", "C26: sum of the parts")
m("M15b", EN, "totalEnergySplit", "⟨kineticEnergyOcc g kpts c occ, ext, har, exc⟩", "⟨kineticEnergyOcc g kpts c occ, har, ext, exc⟩", "C26: order of the parts")
m("M15c", EN, "occOrOnes", "| none => fun _ _ _ => 1", "| none => fun _ _ _ => 0", "C26: default occupation")
m("M15d", EN, "hartreeRealSpace", "ifftn (hartreeReciprocal", "fftn (hartreeReciprocal", "C30")
XC = "Model/Xc.lean"
m("M160", XC, "ldaPoint2", "0.5 * (lib.lda xt (2 * up) + lib.lda xt (2 * dn))", "0.5 * (lib.lda xt up + lib.lda xt dn)", "C27: spin scaling")
m("M161", XC, "ldaPoint2", "else lib.ldaPol xt up dn", "else lib.ldaPol xt dn up", "C27", tightened=["correlation_polarised"], note="survived a first attempt; the named theorem was added")
m("M162", XC, "ggaPoint2", "(4 * sdd)", "(2 * sdd)", "C27")
m("M163", XC, "excLda1", "(xts.map fun xt => ldaPoint1 lib xt rho).sum", "((xts.take 1).map fun xt => ldaPoint1 lib xt rho).sum", "C27: sum over names")
m("M164", XC, "gradRho", "* Complex.I * (g k d : ℂ)\n\n/-- One entry", "* (g k d : ℂ)\n\n/-- One entry", "C28: gradient")
m("M165", XC, "sigmaPair", "conj (gradRho g a d j) * gradRho g b d j", "gradRho g a d j * gradRho g b d j", "C28")
m("M166", XC, "vxcLda1", "deriv exc rho * rho + exc rho", "deriv exc rho + exc rho", "C56: derivative of the energy")
m("M167", XC, "vxcLda2", "deriv (fun x => exc up x) dn * dn + exc up dn)", "deriv (fun x => exc up x) dn * up + exc up dn)", "C56", tightened=["vxc_lda_polarised_error_down"], note="survived a first attempt; the named theorem was added")
m("M168", XC, "pyIn", "s.toList.tails.any fun t => sub.toList.isPrefixOf t", "sub.toList.isPrefixOf s.toList", "C27: substring")
m("M169", XC, "excDensity", "if ns = 2 then excLda2 lib xts (chan rho 0 j) (chan rho 1 j)", "if ns = 2 then excLda2 lib xts (chan rho 0 j) (chan rho 0 j)", "C27")
m("M16a", XC, "vxcDensity", "((if (s : ℕ) = 0 then v.1 else v.2 : ℝ) : ℂ)", "((if (s : ℕ) = 0 then v.2 else v.1 : ℝ) : ℂ)", "C56: channels")
m("M16b", XC, "vxcGga1", "- 2 * (t3 j + t4 j)", "+ 2 * (t3 j + t4 j)", "C56")
m("M16c", XC, "sigma1", "∑ d, absoluteSquare (gradRho g rho d j)", "∑ d, ‖gradRho g rho d j‖", "C28")
EW = "Model/Ewald.lean"
m("M170", EW, "ewaldTau", "pos j d - pos i d", "pos j d + pos i d", "C29: translation")
m("M171", EW, "ewaldNorm", "if x ≤ 1e-9 then 1e20 else x", "x", "C29: self term")
m("M172", EW, "ewaldOverlap", "erfc (eta * ewaldNorm tau (T t)) / ewaldNorm tau (T t)", "erfc (eta * ewaldNorm tau (T t))", "C29")
m("M173", EW, "ewaldReciprocal", "if isOrigin k then 0 else Real.cos", "if isOrigin k then 1 else Real.cos", "C29")
m("M174", EW, "ewaldReciprocal", "* 4 * Real.pi / vol", "* 4 * Real.pi", "C29: scaling")
m("M175", EW, "ewald", "(∑ i, q i ^ 2) * 2 * eta", "(∑ i, q i) * 2 * eta", "C29: quadratic in the charges")
m("M176", EW, "ewald", "(∑ i, q i) ^ 2 * Real.pi", "(∑ i, q i ^ 2) * Real.pi", "C29")
m("M177", EW, "ewaldReciprocal", "/ 4 / eta ^ 2) / ewaldGSq g k", "/ 4 / eta ^ 2)", "C29")
HE = "Model/Hessian.lean"
m("M180", HE, "vjp", "- Complex.I * (((∑ i, v i * fderiv ℝ f x (Pi.single j Complex.I) i).re", "+ Complex.I * (((∑ i, v i * fderiv ℝ f x (Pi.single j Complex.I) i).re", "C32: complex Hessian")
m("M181", HE, "complexHessian", "vjp (gradF f) x (Pi.single i 1)", "vjp (gradF f) x (Pi.single i Complex.I)", "C32")
HA = "Model/Hamiltonian.lean"
m("M190", HA, "effectivePotential", "if ks then ⟨ns, fun s j => har j + ext j + vxcDensity lib xt g dens s j⟩", "if ks then ⟨ns, fun s j => har j + vxcDensity lib xt g dens s j⟩", "C31")
m("M191", HA, "traceSum", "if keep then .perSpin", "if !keep then .perSpin", "C31: spin axis")
m("M192", HA, "hamiltonianMatrix", "(c s k) pos charge dens g (kpts k) vol", "(c s k) pos charge dens g (kpts 0) vol", "C31: own k point") if False else None
m("M193", HA, "hamilK", "| .ok t => ((0.5 * t.total : ℝ) : ℂ)\n  match trace fun _ => 1 with\n  | .error e => .error e\n  | .ok _ => .ok (complexHessian efun fun _ => 1)\n\n/-- `hamiltonian_matrix`", "| .ok t => ((t.total : ℝ) : ℂ)\n  match trace fun _ => 1 with\n  | .error e => .error e\n  | .ok _ => .ok (complexHessian efun fun _ => 1)\n\n/-- `hamiltonian_matrix`", "C31: factor one half")
m("M194", HA, "mixBands", "∑ i, u i * c i x", "∑ i, (starRingEnd ℂ) (u i) * c i x", "C31: Hessian is the matrix of H")
m("M195", HA, "hamiltonianTerms", "(waveGrid c vol) (.lead m v) vol none \"real\"", "(waveGrid c vol) (.lead m v) vol none \"reciprocal\"", "C31")
m("M196", HA, "hamiltonianTerms", "vol none \"kinetic\" with", "vol none \"real\" with", "C31")
DR = "Model/DensityR.lean"
m("M1a0", DR, "checkPosition", "r.length = 3", "r.length = 4", "C55") if False else None
m("M1a1", DR, "nablaDensityBands", "    2 * (o1 * o2 + o3 * o4)\n", "    o1 * o2 + o3 * o4\n", "C55: gradient")
m("M1a2", DR, "nablaDensityBands", "let o2 := -∑ x,", "let o2 := ∑ x,", "C55: gradient")
m("M1a3", DR, "nablaDensity", "* occ s k b) / volume A", "* occ s k b)", "C55")
SH = "Model/Shape.lean"
m("M1b0", SH, "bcast", "bcastRev xs.reverse ys.reverse", "bcastRev xs ys", "C51")
m("M1b1", SH, "einsumSh", "(ops.flatMap fun o => o.1) pairs with", "[] pairs with", "C51: size mismatch of a summed label", tightened=["densityGrid_shape_iff"], note="survived a first attempt; the named theorem was added")
m("M1b2", SH, "ArrVal.get", "| .array _ => .error .attributeError", "| .array s => .ok (.array s)", "C51: squeeze raises (disagreement)")
m("M1b3", SH, "waveToDensitySh", "| .error _ => .error .valueError\n    | .ok p => sumRange 1 3 p", "| .error e => .error e\n    | .ok p => sumRange 2 3 p", "C51")
m("M1b4", SH, "bindCall", "!p.hasDefault && !kws.contains p.name", "!kws.contains p.name", "C51: calls that bind", tightened=["bindCall_iff"], note="survived a first attempt; the named theorem was added")
m("M1b5", SH, "kineticOperatorSh", "bcast g [k, 1, 1, 1, d]", "bcast g [1, k, 1, 1, d]", "C51")
m("M1b6", SH, "hartreeReciprocalSh", "let dim ← lastDim g\n  if rho.length ≠ dim + 1 then .error .assertionError\n  else\n    let r ← sumFirst rho\n    let gsq ← sumLast g\n    if gsq.length < dim then .error .indexError\n    else bcast r gsq", "let dim ← lastDim g\n  if rho.length ≠ dim then .error .assertionError\n  else\n    let r ← sumFirst rho\n    let gsq ← sumLast g\n    if gsq.length < dim then .error .indexError\n    else bcast r gsq", "C51")
m("M1b7", SH, "swapLast", ".ok (b :: a :: r).reverse", ".ok (a :: b :: r).reverse", "C51")
SP = "Model/Spmd.lean"
m("M1c0", SP, "fftn3d", "if n.length < 3 then .error .valueError else .ok (onLast (fun _ => fftn) n x)", "if n.length < 2 then .error .valueError else .ok (onLast (fun _ => fftn) n x)", "C43: rank check")
m("M1c1", SP, "onLast", "n.drop (n.length - 3), idx.drop", "n.take 3, idx.drop", "C43: last axes")
m("M1c2", SP, "fftnJvp", "(fun a => fftn (x a), fun a => fftn (t a))", "(fun a => fftn (x a), fun a => ifftn (t a))", "C43: derivative")
m("M1c3", SP, "ifftnTranspose", "fun a => ifftn (ct a)\n", "fun a => fftn (ct a)\n", "C43: transpose")
m("M1c4", SP, "fftnBatch", "| .ok y => .ok (y, 0)\n\n/-- `_ifftn_batching_rule`", "| .ok y => .ok (y, bd)\n\n/-- `_ifftn_batching_rule`", "C43: batch axis")
m("M1c5", SP, "moveFront", "rest.insertIdx bd i", "rest ++ [i]", "C43: batch axis")
m("M1c6", SP, "supportedSharding", "min spec.length (rank - 1)", "min spec.length rank", "C44: transformed axes not split")
m("M1c7", SP, "supportedSharding", "List.replicate (rank - m) none", "List.replicate (rank - m - 1) none", "C44")
m("M1c8", SP, "uniformSharded", "if piece = want then .ok shape else .error .valueError", ".ok shape", "C59: shape of the random array")
m("M1c9", SP, "fftAbstract", "(shape, dtype)\n", "(shape, fftDtype dtype)\n", "C43: announced data type (disagreement)")
SR = "Model/Spherical.lean"
m("M1d0", SR, "cartesianToSpherical", "if vecNorm x = 0 then eps else vecNorm x", "vecNorm x + eps", "C48: radius")
m("M1d1", SR, "cartesianToSpherical", "(x 2 / r)", "(x 0 / r)", "C48: polar angle")
m("M1d2", SR, "cartesianToSpherical", "Complex.arg ⟨x 0, x 1⟩", "Complex.arg ⟨x 1, x 0⟩", "C48: azimuth")
m("M1d3", SR, "legendreKernelTrick", "Real.sqrt 3 / 3 + 0", "Real.sqrt 3", "C48: addition theorem l = 0")
m("M1d4", SR, "legendreKernelTrick", "Real.sqrt 3 * (x d / Real.sqrt (∑ e, x e ^ 2))", "Real.sqrt 3 * x d", "C48: l = 1 depends on the direction")
m("M1d5", SR, "batchSphHarmReal", "y2.im * Real.sqrt 2", "y1.im * Real.sqrt 2", "C60: real harmonics")
m("M1d6", SR, "sphericalRow", "if i < 2 * l + 1", "if i < 2 * l", "C60: all orders")
m("M1d7", SR, "batchSphHarm", "sph l ((i : ℤ) - l) phi theta", "sph l ((i : ℤ) - l) theta phi", "C60: argument order")
SB = "Model/Sbt.lean"
m("M1e0", SB, "simpsonLoop", "drho * rr (ii + 1) * 4 / 3", "drho * rr (ii + 1) * 2 / 3", "C49: Simpson weights")
m("M1e1", SB, "simpsonLoop", "drho * rr (ii + 2) / 3 + w (ii + 2)", "drho * rr (ii + 2) / 3", "C49: composite weights")
m("M1e2", SB, "meshStep", "((nr : ℝ) - 1)", "(nr : ℝ)", "C49: step")
m("M1e3", SB, "deltaR", "if i + 1 < nr then rr (i + 1) - rr i else 0", "if i < nr then rr (i + 1) - rr i else 0", "C49: last weight")
m("M1e4", SB, "gGrid", "((2 * nr : ℕ) - 1 : ℝ)", "((2 * nr : ℕ) : ℝ)", "C49: grid reaches kmax")
m("M1e5", SB, "sbtNumerical", "rr i ^ 2 * jn l", "rr i * jn l", "C49")
m("M1e6", SB, "sbtRows", "if rows.length = ls.length then", "if rows.length ≤ ls.length then", "C49: lengths")
PS = "Model/Pseudo.lean"
m("M1f0", PS, "symmetrize", "D + Dᵀ", "D + D", "C34: symmetric part")
m("M1f1", PS, "csqrt", "Complex.I * (Real.sqrt (-x) : ℂ)", "(Real.sqrt (-x) : ℂ)", "C34: negative eigenvalues")
m("M1f2", PS, "nlPsi", "Complex.I ^ sp.ang b1 * 4", "4", "C34: phases (disagreement)")
m("M1f3", PS, "nlPsi", "Complex.exp (-(Complex.I * ((∑ d, (kpts k d + g x d) * pos d", "Complex.exp (-(Complex.I * ((∑ d, g x d * pos d", "C61: structure factor")
m("M1f4", PS, "hamiltonianNonlocal", "conj (f s k i β φ) * f s k j β φ", "f s k i β φ * f s k j β φ", "C34: Hermitian")
m("M1f5", PS, "hamiltonianNonlocal", "f s k j β φ) / (vol : ℂ)", "f s k j β φ)", "C34")
m("M1f6", PS, "energyNonlocal", "* (o s k b : ℂ)).re", ").re", "C34")
m("M1f7", PS, "localSbt", "let v : Samples := fun i => a.v i + a.z / a.r i", "let v : Samples := fun i => a.v i - a.z / a.r i", "C35/C62: short-ranged part")
m("M1f8", PS, "localReciprocal", "form (atoms a) k - (((atoms a).z", "form (atoms a) k + (((atoms a).z", "C35/C62: attractive tail")
m("M1f9", PS, "localReciprocal", "(gridCount n : ℂ) / (vol : ℂ)", "(1 : ℂ) / (vol : ℂ)", "C35/C62: normalisation")
m("M1fa", PS, "localReciprocal", "if isOrigin k then 0 else form", "form", "C35/C62: zero component")
m("M1fb", PS, "betaSbtSingle", "if ang.length ≠ nrow then", "if ang.length < nrow then", "C65: lengths")
m("M1fc", PS, "betaSbtSingle", "let drop : ℕ := if r 0 = 0 then 1 else 0", "let drop : ℕ := 0", "C65: mesh starting at zero")
m("M1fd", PS, "betaSbtSingle", "ang.getD b 0", "ang.getD 0 0", "C65: own angular momentum")
m("M1fe", PS, "localFft", "/ (gridCount n : ℂ) * 4 *", "* 4 *", "C64: two methods")
m("M1ff", PS, "ncOperator", "if ks then .lead d fun s j => hartreeRealSpace dens g ks j + vxcDensity", "if ks then .lead d fun s j => vxcDensity", "C63")
m("M1g0", PS, "ncHamiltonianMatrix", "(match bcIdx K₁ k with | some q => loc s q i j | none => 0) +\n", "", "C63: local part")
m("M1g1", PS, "ncHamiltonianTrace", "(nloc : ℂ) + (loc : ℂ) + hs + t", "(nloc : ℂ) + hs + t", "C63: trace")
m("M1g2", PS, "maxRadius", "Finset.univ.fold max 0 rad", "Finset.univ.fold max 1 rad", "C35/C62: largest radius")
m("M1g3", PS, "localForm", 'if method = "sbt" then .ok fun a k => (localSbt', 'if method = "fft" then .ok fun a k => (localSbt', "C64: method names")
LO = "Model/Load.lean"
m("M1h0", LO, "isRow", 'decide (w ≠ "nl".toList)', "true", "C50: header line of the table")
m("M1h1", LO, "readRow", "let l ← (wordAt ws 2 >>= readInt rd)", "let l ← (wordAt ws 1 >>= readInt rd)", "C50: columns")
m("M1h2", LO, "scanStep", "then p.2 else vi\n", "then p.2 else st.2\n", "C50: lost table (disagreement)")
m("M1h3", LO, "parseInfo", "slice lines (st.1 + 2) st.2", "slice lines (st.1 + 3) st.2", "C50: first orbital")
m("M1h4", LO, "upfMatches", '(pyLower atom ++ ".".toList).isPrefixOf', "(pyLower atom).isPrefixOf", "C50: C also matches Ca.upf")
m("M1h5", LO, "findUpf", ".ok (d ++ name)", ".ok name", "C50: path")
m("M1h6", LO, "takePositive", "decide (0 < p.1)", "decide (0 ≤ p.1)", "C50: mesh point at zero")
m("M1h7", LO, "ncStep", "acc.localGrid ++ [loc.map (· / 2)], acc.localCharge ++ [valence.getLastD 0],\n      acc.numBeta ++ [bs.length]", "acc.localGrid ++ [loc], acc.localCharge ++ [valence.getLastD 0],\n      acc.numBeta ++ [bs.length]", "C50: Rydberg to Hartree")
m("M1h8", LO, "ncStep", "acc.dMatrix ++ [d.map fun row => row.map (· / 2)]", "acc.dMatrix ++ [d]", "C50: Rydberg to Hartree")
m("M1h9", LO, "ncStep", "valence.getLastD 0],\n      acc.numBeta ++ [1]", "valence.headD 0],\n      acc.numBeta ++ [1]", "C50: charge of own atom")
m("M1ha", LO, "truncQ", "if 0 ≤ q then q.floor else q.ceil", "q.ceil", "C50: truncation")
m("M1hb", LO, "reshapeSq", "slice d (i * m) ((i + 1) * m)", "slice d (i * m) ((i + 1) * m - 1)", "C50: rows")
m("M1hc", LO, "parseNonlocal", '"PP_BETA".toList.isPrefixOf c.tag', '"PP_QIJ".toList.isPrefixOf c.tag', "C50: projectors")
m("M1hd", LO, "setQij", "if a = n' ∧ b = m' ∧ c = l' then q₁ m' n' l'", "if a = n' ∧ b = m' ∧ c = l' then q n' m' l'", "C50: symmetric Q")
m("M1he", LO, "usStep", "| none => pure acc\n", "| none => pure ⟨acc.qMatrix ++ [[]], acc.qij, acc.qWithL⟩\n", "C50: lists of ultrasoft (disagreement)")
m("M1hf", LO, "divideWhere", "p.1.1 / den p.1.2 else junk p.2", "p.1.1 / den p.1.2 else 0", "C50: uninitialised entries")

SF = "Model/SbtFft.lean"
m("M1i0", SF, "SbtMesh.kappaMin", "(Real.log (S.rr (S.nr - 1)) - S.rhoMin)", "Real.log (S.rr (S.nr - 1))", "C73: last wave number is kmax")
m("M1i1", SF, "SbtMesh.rrExt", "((i : ℝ) - S.nr)", "((i : ℝ) - S.nr + 1)", "C73: continuation mesh off by one")
m("M1i2", SF, "SbtMesh.tt", "((2 * S.nr : ℕ) * S.drho)", "(S.nr * S.drho)", "C73: conjugate step")
m("M1i3", SF, "SbtMesh.postDiv", "* 1.5)", "* 0.5)", "C73: power of k")
m("M1i4", SF, "SbtMesh.mlt1", "(if m = 0 then v / 2 else v)", "v", "C73: first term halved")
m("M1i5", SF, "SbtMesh.mlt1", "- Real.arctan (2 * t)", "+ Real.arctan (2 * t)", "C73: degree one table")
m("M1i6", SF, "SbtMesh.mlt1", "(2 * ((ll + 1 : ℕ) : ℝ) + 1)", "(2 * (ll : ℝ) + 1)", "C73: recursion of the table")
m("M1i7", SF, "SbtMesh.mlt1", "* S.mlt1 ll m", "* S.mlt1 (ll + 1) m", "C73: recursion of the table")
m("M1i8", SF, "sbtLargeIn", "| .forward => ff 0 / S.rr 0 ^ npl", "| .forward => ff 0", "C73: continuation meets the first sample")
m("M1i9", SF, "sbtLargeIn", "if p < S.nr then C * S.rrExt p ^ npl * S.rr15Ext p else", "if p < S.nr then 0 else", "C73: continuation dropped")
m("M1ia", SF, "sbtLarge", "conj (out m) * S.mlt1 row m", "out m * S.mlt1 row m", "C73: conjugate")
m("M1ib", SF, "sbtLarge", "| .forward => S.rr 0 / S.kk 0", "| .forward => S.kk 0 / S.rr 0", "C73: prefactor")
m("M1ic", SF, "sbtLarge", "(tmp2 (S.nr + j)).re", "(tmp2 j).re", "C73: half of the doubled mesh that is read")
m("M1id", SF, "sbtSmall", "| .forward => S.rr p ^ 3", "| .forward => S.rr p ^ 2", "C73: measure")
m("M1ie", SF, "sbtSmall", "* ((2 * S.nr : ℕ) : ℝ) * S.drho", "* ((2 * S.nr : ℕ) : ℝ)", "C73: step of the rectangle rule")
m("M1if", SF, "sbtJoin", "if j ≤ argminUpTo", "if j < argminUpTo", "C73: cut (swapped branch at the cut)")
m("M1ig", SF, "sbtJoin", "then small j else large j", "then large j else small j", "C73: branches")
m("M1ih", SF, "argminUpTo", "if x (n + 1) < x (argminUpTo x n)", "if x (n + 1) ≤ x (argminUpTo x n)", "C73: first minimum")
m("M1ii", SF, "sbtZero", "simpsonWeights S.drho S.nr S.rr i * S.rr i ^ 2 * ff i", "simpsonWeights S.drho S.nr S.rr i * S.rr i ^ 3 * ff i", "C73: value at zero")
m("M1ij", SF, "sbtReturn", "if includeZero then gg0 :: vals else vals", "if includeZero then vals ++ [gg0] else vals", "C73: zero first")
m("M1ik", SF, "sbtRow", "(l + (lmax + 1)).toNat", "(l + lmax).toNat", "C73: negative degree (disagreement)")
m("M1il", SF, "sbtRun", "if (lmax : ℤ) < l then .error .assertionError", "if (lmax : ℤ) + 1 < l then .error .assertionError", "C73: largest degree")
m("M1im", SF, "sbtRunInt", "(S.rr i ^ 2 * ff i * simpsonWeights S.drho S.nr S.rr i)", "(ff i * simpsonWeights S.drho S.nr S.rr i)", "C49: measure", tightened=["sbtRunInt_simpson"], note="survived a first attempt; the named theorem was added")
m("M1in", SF, "sbtRunInt", "jn l (S.rr j * S.kk i)", "jn l (S.rr i * S.kk j)", "C49: argument of the inverse")
m("M1io", SF, "batchSbt", "rows.zip ls)", "rows.zip ls.reverse)", "C75: degree of each row")
m("M1ip", SF, "batchLoop", "g :: out", "out ++ [g]", "C75: order of rows")
m("M1iq", SF, "sbtFast", "let lmax ← sbtTable 10", "let lmax ← sbtTable 9", "C73: degrees up to 10")
m("M1ir", SF, "SbtMesh.mlt2", "S.xx p", "S.xx (p + 1)", "C73: argument mesh of j_l")
m("M1is", SF, "irfft", "(X n).re * (-1) ^ q", "(X n).re", "C73: last coefficient")
GD = "Model/Driver.lean"
m("M1j0", GD, "gsState", "E.ne E.spin E.method E.restricted with\n  | .error e => .error e\n  | .ok o =>\n    match bcLen", "E.ne 0 E.method E.restricted with\n  | .error e => .error e\n  | .ok o =>\n    match bcLen", "C66: spin of the occupation")
m("M1j1", GD, "gsTotal", "q.kin + q.har + q.ext + q.xc)", "q.kin + q.har + q.ext)", "C66: total energy")
m("M1j2", GD, "gsFree", "total - temp * etro", "total + temp * etro", "C68: sign of the entropy term", tightened=["driver_free_energy_partial"], note="survived a first attempt; the named theorem was added")
m("M1j3", GD, "gsTotalNC", "q.ext + nloc + q.xc", "q.ext + q.xc", "C67: nonlocal energy")
m("M1j4", GD, "gsLoop", "if r.2 then .ok (upd p (temp i), some e)", "if r.2 then .ok (p, some e)", "C66: parameters returned at convergence")
m("M1j5", GD, "gsLoop", "(upd p (temp i)) r.1 (some e)", "(upd p (temp 0)) r.1 (some e)", "C66: schedule")
m("M1j6", GD, "gsLoop", "r.1 (some e)", "chk (some e)", "C66: checker state dropped")
m("M1j7", GD, "gsRun", "e + ew, dens⟩", "e, dens⟩", "C66: repulsion in the reported total")
m("M1j8", GD, "gsRun", "| none => .error .unboundLocal", "| none => .ok ⟨parts, ew, ew, dens⟩", "C66: no epochs (disagreement)")
m("M1j9", GD, "gsInit", "nk E.spin E.method E.restricted).map", "nk E.spin E.method true).map", "C69: occupation parameters of an unrestricted run")
m("M1ja", GD, "gsInitNC", "nk E.spin E.method true).map", "nk E.spin E.method E.restricted).map", "C69: norm-conserving driver (disagreement)")
m("M1jb", GD, "driverRepulsion", "(fun a => (c.charges a : ℝ))", "(fun _ => 1)", "C66/C16: charges")
m("M1jd", GD, "gsEntropy", "E.ne E.spin E.method E.restricted with\n  | .error e => .error e\n  | .ok o => .ok (fermiDirac", "E.ne E.spin E.method true with\n  | .error e => .error e\n  | .ok o => .ok (fermiDirac", "C68: entropy of the occupation used", tightened=["driver_free_energy_partial"], note="survived a first attempt; the named theorem was added")
m("M1je", GD, "gsPartsNC", "energyNonlocal c psi E.vol (some o)", "energyNonlocal c psi E.vol none", "C67: occupations in the nonlocal energy")
m("M1jf", GD, "gsDensity", "densityGrid c E.vol o⟩", "densityGrid c 1 o⟩", "C66: returned density")
m("M1jg", B, "fineTune", "eig (fine p k) k :: fineTune fine eig (fine p k) ks", "eig p k :: fineTune fine eig (fine p k) ks", "C28: eigenvalues of own parameters")
m("M1jh", B, "optimizeChunk", "fineTune fine eig (first p0 k) ks", "fineTune fine eig p0 ks", "C28: warm start")
m("M1ji", B, "bandNormcons", "[per, util, K, nb]", "[util, per, K, nb]", "C70: order of k points")
m("M1jj", B, "bandAllElectrons", "else if util < devices then .error .valueError", "else if devices < util then .error .valueError", "C28: device count")
m("M1jk", B, "bandNCCalc", "then .error .typeError else .error .nameError", "then .error .typeError else .error .keyError", "C70: supplied ground state raises (disagreement)")
BO = "Model/BandOpt.lean"
m("M1k0", BO, "bandTrace", "match hamiltonianTrace E.lib E.xc true false", "match hamiltonianTrace E.lib E.xc false false", "C72: Kohn-Sham potential in the objective")
m("M1k1", BO, "bandEig", "match hamiltonianMatrix E.lib E.xc true", "match hamiltonianMatrix E.lib E.xc false", "C71: Kohn-Sham potential")
m("M1k2", BO, "bandEig", "(fun _ : Fin 1 => k) E.vol s 0 with", "(fun _ : Fin 1 => 0) E.vol s 0 with", "C71: own k point")
m("M1k3", BO, "bandCalc", "if min (maskCount E.mask) nb = nb then .ok r else .error .typeError", ".ok r", "C71: more bands than plane waves (disagreement)")
m("M1k4", BO, "bandEigNC", "fun q => E.eigh.vals (Matrix.of (H 0 q))", "fun q => fun b => E.eigh.vals (Matrix.of (H 0 q)) (Fin.rev b)", "C71: ascending order")
m("M1k5", BO, "bandTraceNC", "E.g\n    (fun _ => k.1) E.vol", "E.g\n    (fun _ => 0) E.vol", "C72: own k point")
m("M1k6", BO, "bandCalc", "(fun p k => (upd k)^[epoch] p) (fun p k => (upd k)^[fineEpoch] p)\n      (fun", "(fun p k => (upd k)^[fineEpoch] p) (fun p k => (upd k)^[epoch] p)\n      (fun", "C71: number of epochs", tightened=["bandCalc_epochs_partial"], note="the variational bound holds for any number of epochs; the named theorem was added")
m("M1k8", BO, "bandCalcNC", "(fun p k => (upd k)^[epoch] p) (fun p k => (upd k)^[fineEpoch] p)\n    (fun", "(fun p k => (upd k)^[epoch] p) (fun p k => (upd k)^[epoch] p)\n    (fun", "C71: number of epochs", tightened=["bandCalcNC_epochs"], note="the variational bound holds for any number of epochs; the named theorem was added")
m("M1k7", BO, "bandCalcNC", "(fun p k => bandEigArrayNC E p.1 k) p0 path", "(fun p _ => bandEigArrayNC E p.1 (path 0)) p0 path", "C71: own k point")
RN = "Model/Run.lean"
m("M1l0", RN, "crystalPath", "match cfg.crystal with\n  | some name => some (pkg ++ \"/geometry/\" ++ name ++ \".xyz\")\n  | none => cfg.crystalFile", "match cfg.crystalFile with\n  | some f => some f\n  | none => cfg.crystal.map fun name => pkg ++ \"/geometry/\" ++ name ++ \".xyz\"", "C79: precedence of the crystal name")
m("M1l1", RN, "createFreqMask", "else .error .valueError", "else .ok (cubicMask n)", "C79: unknown mask refused")
m("M1l2", RN, "createFreqMask", "if cfg.maskMethod = \"cubic\" then .ok (cubicMask n)", "if cfg.maskMethod = \"cubic\" then .ok (fun _ => true)", "C79: mask (createFreqMask itself is used in the statement)")
m("M1l3", RN, "runRepulsion", "(gVectors c.cell n) cfg.ewaldEta\n    (flatRows (translationVectors c.cell cfg.ewaldCutoff))", "(gVectors c.cell n) cfg.ewaldCutoff\n    (flatRows (translationVectors c.cell cfg.ewaldEta))", "C79: swapped Ewald arguments")
m("M1l4", RN, "runEnv", "kpts := flatRows (kVectors c.cell kn)", "kpts := fun _ => 0", "C79: k points of the energy")
m("M1l5", RN, "runEnv", "vol := c.vol", "vol := c.cell.det", "C79: sign of the volume")
m("M1l6", RN, "runEnv", "restricted := cfg.restricted", "restricted := true", "C79: spin channels")
m("M1l7", RN, "runEnv", "spin := c.spin", "spin := 0", "C79: polarisation")
m("M1l8", RN, "runLoop", "E ew (runUpdate opt E)", "E 0 (runUpdate opt E)", "C79: repulsion in the report")
m("M1l9", RN, "runLoop", "(if cfg.restricted then 1 else 2) nk", "(if cfg.restricted then 2 else 1) nk", "C79: channels of the orbitals")
m("M1la", RN, "runCrystal", "% (if cfg.parallelK then L.devices else 1) ≠ 0", "% L.devices ≠ 0", "C79: devices count only when parallel")
m("M1lb", RN, "runSizes", "createGridsSizes cfg.gridSizes cfg.kGridSizes", "createGridsSizes cfg.kGridSizes cfg.gridSizes", "C79: swapped sizes")
m("M1ld", RN, "runEnv", "pos := c.positions", "pos := c.scaledPositions", "C79: Cartesian positions")
m("M1le", RN, "runEnv", "g := gVectors c.cell n", "g := gVectors 1 n", "C79, C76: reciprocal grid of the cell")
m("M1lf", RN, "runRepulsion", "translationCount c.cell cfg.ewaldCutoff < 0 then .error .valueError", "translationCount c.cell cfg.ewaldCutoff < 2 then .error .valueError", "C79: count one is allowed")
m("M1lg", RN, "threeSizes", "| [a, b, c] => .ok ![a, b, c]", "| [a, b, c] => .ok ![c, b, a]", "C79: order of the axes")
m("M1lh", RN, "runLoop", "cfg.epoch cfg.smearing cfg.window cfg.threshold", "cfg.window cfg.smearing cfg.epoch cfg.threshold", "C79: epochs and window swapped")
m("M1li", RN, "runUpdate", "(gsFree E t q).map fun r => r.1", "(gsFree E t q).map fun r => r.2.1", "C66: temperature in the minimised function")
NC = "Model/RunNC.lean"
SPH = "Model/Spherical.lean"
XCM = "Model/Xc.lean"
ENM = "Model/Energy.lean"
m("M1m0", XCM, "sigma2", "| 2 => sigmaPair g dn dn", "| 2 => sigmaPair g up up", "C80: spin exchange of the gradient invariants")
m("M1m1", XCM, "ldaPoint2", "lib.lda xt (2 * up) + lib.lda xt (2 * dn)", "lib.lda xt (2 * up) + lib.lda xt (2 * up)", "C32/C80: exchange of both channels")
m("M1m2", XCM, "ggaPoint2", "(4 * suu)", "(2 * suu)", "C32: spin scaling of the gradient")
m("M1m3", ENM, "hartreeReciprocal", "let total := ∑ s, rho s k", "let total := if h : 0 < ns then rho ⟨0, h⟩ k else 0", "C11: all channels in the Hartree potential")
m("M1m4", ENM, "externalReciprocal", "Complex.exp (-(Complex.I", "Complex.exp ((Complex.I", "C12: structure factor")
m("M1m5", O, "gammaOcc", "inSlice n 0 ((ne - spin) / 2) b then 1 else 0]\n  if restricted then sumSpin occ else occ\n\n/-- `jax.nn.sigmoid`", "inSlice n 0 ((ne - spin) / 2) b then 2 else 0]\n  if restricted then sumSpin occ else occ\n\n/-- `jax.nn.sigmoid`", "C19: bounds and total")
m("M1m6", O, "idempotentOcc", "[fun k b => idemChannel qr p.up k b / (nk : ℝ), fun", "[fun k b => idemChannel qr p.up k b, fun", "C20: total of unrestricted occupations")
m("M1m7", G, "monkhorstPack", "(n d : ℝ) - 0.5", "(n d : ℝ)", "C08, C77: mesh symmetric about the origin")
m("M1m8", SPH, "legendreToSphHarm", "v * 2 * (Real.sqrt", "v * (Real.sqrt", "C48: factor of the addition theorem")
m("M1m9", SPH, "legendreToSphHarm", "List.replicate ((lMax - l) * 2) 0", "List.replicate (lMax - l) 0", "C48: number of entries")
m("M1ma", SPH, "legendreToSphHarm", "(cartesianToSpherical x).phi (cartesianToSpherical x).theta\n    .ok", "(cartesianToSpherical x).theta (cartesianToSpherical x).phi\n    .ok", "C48: polar and azimuth swapped")
m("M1mb", SPH, "legendreToSphHarm", "if lMax < l then", "if lMax ≤ l then", "C48: l = l_max is allowed")
m("M1mc", SPH, "sphericalRow", "if i < 2 * l + 1 then", "if i < 2 * l then", "C60: all orders")
m("M1md", SPH, "sphericalRow", "(cartesianToSpherical v).theta (cartesianToSpherical v).phi i", "(cartesianToSpherical v).phi (cartesianToSpherical v).theta i", "C60, C82: polar and azimuth swapped")
m("M1me", NC, "createPseudo", "if cfg.usePseudo = false then .error .assertionError\n  else", "if cfg.usePseudo = false ∧ False then .error .assertionError\n  else", "C86: pseudopotentials switched off")
m("M1mf", NC, "createPseudo", "| none => .error .attributeError", "| none => .error .valueError", "C86: missing type (disagreement)")
m("M1mg", NC, "createPseudo", "else .error .valueError", "else ncCreate L.rd L.junk L.listdir L.parse none symbols", "C86: unknown type refused")
m("M1mh", NC, "ncLocalAtom", "samplesOf (P.localGrid.getD a [])", "samplesOf (P.localGrid.getD 0 [])", "C85: each atom has its own local potential")
m("M1mi", NC, "ncLocalAtom", "pos := pos a", "pos := 0", "C83 and C84 hold trivially; C85 holds; the local potential ignores positions", note="expected to break the statement of C86 only through ncLocalAtom itself")
m("M1mj", NC, "ncLocalAtom", "P.localCharge.getD a 0", "P.localCharge.getD 0 0", "C85: each atom has its own charge")
m("M1mk", NC, "ncBetas", "if L.cpus / 2 = 0 then", "if L.cpus = 0 then", "C86: one processor refused (disagreement)")
m("M1ml", NC, "ncSpecies", "ang := fun i => ((P.angular.getD a []).getD i 0).toNat", "ang := fun i => ((P.angular.getD 0 []).getD i 0).toNat", "C85: own angular momenta")
m("M1mm", NC, "ncSpecies", "let b := bs.getD a", "let b := bs.getD 0", "C85: own projectors")
m("M1mn", NC, "ncSpecies", "(P.dMatrix.getD a [])", "(P.dMatrix.getD (a + 1) [])", "C85: own D matrix")
m("M1mo", NC, "occPlaceable", "| .idem _ => false", "| .idem _ => true", "C86: idempotent refused (disagreement)")
m("M1mp", NC, "occPlaceable", "| .simplex _ _ => decide (nb % util = 0)", "| .simplex _ _ => decide (nk % util = 0)", "C86: number of bands shared (disagreement)")
m("M1mq", NC, "runLoopNC", "if occPlaceable util p.occ = false then .error .valueError\n      else", "if occPlaceable util p.occ = true then .error .valueError\n      else", "C86: admissible runs succeed")
m("M1mr", NC, "runEnvNC", "with ne := P.valence.sum }", "with ne := c.numElectron }", "C86: valence electrons only")
m("M1ms", NC, "runCrystalNC", "c.positions\n                    (gVectors c.cell n) (flatRows (kVectors c.cell kn))) ew with", "(fun _ => 0)\n                    (gVectors c.cell n) (flatRows (kVectors c.cell kn))) ew with", "C86: projectors at the atoms")
m("M1mt", NC, "runCrystalNC", "c.vol \"sbt\" with", "c.cell.det \"sbt\" with", "C86: volume of the local potential")
m("M1mu", NC, "runCrystalNC", "match ncBetas L P (gVectors c.cell n) (flatRows (kVectors c.cell kn)) with", "match ncBetas L P (gVectors c.cell n) (fun _ => 0) with", "C86: projectors at k + G")
m("M1mv", NC, "runLoopNC", "(runUpdateNC opt E vloc psi) cfg.epoch cfg.smearing cfg.window", "(runUpdateNC opt E vloc psi) cfg.window cfg.smearing cfg.epoch", "C86: epochs and window swapped")
m("M1mw", NC, "runLoopNC", "gsCalcNC E vloc psi ew", "gsCalcNC E vloc psi 0", "C86: repulsion")
m("M1mx", NC, "runUpdateNC", "(gsFreeNC E vloc psi t q).map fun r => r.1", "(gsFreeNC E vloc psi t q).map fun r => r.2.1", "C68: temperature in the minimised function of the norm-conserving driver")
m("M1my", NC, "betaOfLists", "(b.getD 0 []).length (samplesOf r)", "(b.getD 1 []).length (samplesOf r)", "C86: length of the projector array")
m("M1mz", NC, "gsFreeNC", "total - temp * etro", "total + temp * etro", "C68: sign of the entropy in the norm-conserving driver", tightened=["driverNC_reaches_partial", "driverNC_ground_state"])
m("M1n0", GD, "gsFree", "(total - temp * etro, total, etro)", "(total + temp * etro, total, etro)", "C88, C89: sign of the entropy in the minimised function")
m("M1n1", GD, "gsFree", "(total - temp * etro, total, etro)", "(total - etro, total, etro)", "C89: temperature in the minimised function")
m("M1n2", "Model/Entropy.lean", "fermiDirac", "((3 - (ns : ℝ)) / nk - occ s k b) *", "(1 - occ s k b) *", "C22, C89: largest occupation in the entropy")
m("M1n3", RN, "runUpdate", "(gsFree E t q).map fun r => r.1", "(gsFree E 0 q).map fun r => r.1", "C89: temperature of the schedule")
m("M1n4", "Model/Planewave.lean", "unitaryMatrix", "(p.re s k a b : ℂ) + Complex.I * (p.im s k a b : ℂ)", "(p.re s k a b : ℂ)", "C88, C89: complex orbitals are reached")
m("M1n5", RN, "runLoop", "cfg.epoch cfg.smearing cfg.window cfg.threshold", "cfg.epoch 0 cfg.window cfg.threshold", "C89: smearing of the configuration")
m("M1n6", RN, "runEnv", "eps := cfg.eps", "eps := cfg.smearing", "C89: entropy_eps of the configuration")
m("M1n7", RN, "runEnv", "charge := fun a => (c.charges a : ℝ)", "charge := fun a => -(c.charges a : ℝ)", "C79, C89: attractive nuclei")
m("M1n8", GD, "gsLoop", "if r.2 then .ok (upd p (temp i), some e)", "if r.2 then .ok (p, some e)", "C37, C89: parameters after the last update")
m("M1n9", GD, "gsLoop", "gsLoop upd energy temp k (i + 1) (upd p (temp i)) r.1 (some e)", "gsLoop upd energy temp k (i + 1) p r.1 (some e)", "C89: updates are kept")
m("M1na", GD, "gsInit", "(occParamInit draw _ E.ne nk E.spin E.method E.restricted)", "(occParamInit draw _ E.ne nk 0 E.method E.restricted)", "C67, C89: spin of the initial occupations")
m("M1nb", GD, "gsTotalNC", "q.ext + nloc + q.xc", "q.ext + q.xc", "C68, C89: nonlocal part of the minimised energy")
m("M1nc", NC, "runUpdateNC", "(gsFreeNC E vloc psi t q).map fun r => r.1", "(gsFreeNC E vloc psi 0 q).map fun r => r.1", "C89: temperature of the schedule (norm-conserving)")
m("M1nd", GD, "gsEntropy", "(fun s : Fin o.length => o.get s) E.eps", "(fun s : Fin o.length => fun k b => 2 * o.get s k b) E.eps", "C89: entropy of the occupations")
m("M1ne", O, "simplexProjector", "proj (ravel fun k b => sigmoid (paramDown k b)) (mDown : ℝ) i / (nk : ℝ)", "proj (ravel fun k b => sigmoid (paramUp k b)) (mDown : ℝ) i / (nk : ℝ)", "C88, C89: independent occupations of the two channels")
BRN = "Model/BandRun.lean"
m("M1o0", B, "bandAllElectrons", "let r := reshapeF [per, devices, ns, 1, nb] [num, ns, nout] a", "let r := reshapeF [devices, per, ns, 1, nb] [num, ns, nout] a", "C39, C90: order of the path")
m("M1o1", B, "bandAllElectrons", "else if N * ns * nb ≠ num * ns * nout then .error .typeError\n", "", "C71, C90: the last reshape (disagreement)")
m("M1o2", BO, "bandCalc", "(fun p k => (upd k)^[epoch] p) (fun p k => (upd k)^[fineEpoch] p)\n    (fun p k => bandEigArray E", "(fun p k => (upd k)^[fineEpoch] p) (fun p k => (upd k)^[epoch] p)\n    (fun p k => bandEigArray E", "C71: number of epochs")
m("M1o3", BRN, "bandPoints", "getKPath (fun _ => frac) cell false i⟩", "getKPath (fun _ => frac) cell true i⟩", "C90: Cartesian path")
m("M1o4", BRN, "bandPoints", "(((bohr2angstrom : ℚ) : ℝ) • cell) b.kPath", "cell b.kPath", "C90, C92: cell in Angstrom for ase")
m("M1o5", BRN, "pathAt", "if h : i < q then path ⟨i, h⟩ else default", "if h : i + 1 < q then path ⟨i + 1, h⟩ else default", "C90: own k point")
m("M1o6", BRN, "bandRunEnv", "charge := fun a => (c.charges a : ℝ)", "charge := fun a => -(c.charges a : ℝ)", "C90: attractive nuclei")
m("M1o7", BRN, "bandRunEnv", "vol := c.vol", "vol := c.cell.det", "C90, C92: volume of left-handed cells")
m("M1o8", BRN, "bandRunEnv", "pos := c.positions", "pos := fun _ => 0", "C90: nuclei at the atoms")
m("M1o9", BRN, "bandUpdate", "opt.step (fun q => bandTrace E q k) p", "opt.step (fun q => bandTrace E q 0) p", "C91: objective of the own k point")
m("M1oa", BRN, "bandGrid", "L.pwDraw (if cfg.restricted then 1 else 2) 1", "L.pwDraw 1 1", "C90: number of channels")
m("M1ob", BRN, "bandGrid", "driverBands c.numElectron.toNat b.emptyBands)\n      match", "driverBands c.numElectron.toNat 0)\n      match", "C90: empty bands")
m("M1oc", BRN, "bandGrid", "L.devices b.parallelPath (bandUpdate", "1 b.parallelPath (bandUpdate", "C90: devices")
m("M1od", BRN, "bandGrid", "b.epoch b.fineEpoch", "b.fineEpoch b.epoch", "C91: epochs swapped", note="bounds hold for every number of epochs")
m("M1oe", BRN, "bandGrid", "| none => .error .typeError\n        | some num => .ok", "| none => .error .valueError\n        | some num => .ok", "C90: kind of exception", tightened=["bandRun_unnumbered"])
m("M1of", BRN, "bandGrid", "values := fun s k j => r s k j", "values := fun s k j => r s (num - 1 - k) j", "C90: order of the path")
m("M1og", BRN, "bandGrid", "String.join (List.ofFn fun i => T.symbol (c.charges i)) ++ \"_band_structure.npy\"", "\"band_structure.npy\"", "C90: file name")
m("M1oh", BRN, "bandGrid", "let E := bandRunEnv L T cfg c n mask rep.density.2", "let E := bandRunEnv L T cfg c n (fun _ => true) rep.density.2", "C90: mask of the configuration")
m("M1oi", BRN, "bandCrystal", "| .ok ⟨_, path⟩ => bandGrid L T cfg b c n kn mask path", "| .ok ⟨_, path⟩ => bandGrid L T cfg b c kn n mask path", "C90: grids swapped")
m("M1oj", BRN, "bandAtoms", "match createCrystal a cfg.spin with", "match createCrystal a none with", "C90: spin of the configuration")
m("M1ok", BRN, "bandRun", "match L.read (crystalPath L.pkgPath cfg) with", "match L.read cfg.crystalFile with", "C90: geometry of the configuration")
m("M1ol", BRN, "bandGrid", "match runGrid L cfg c n kn with\n  | .error e => .error e", "match runGrid L { cfg with restricted := true } c n kn with\n  | .error e => .error e", "C90: own ground-state density")

BRC = "Model/BandRunNC.lean"
m("M1p0", BRC, "rowSpecies", "beta := fun _ => row a", "beta := fun _ => fun i => row a (Fin.rev i)", "C93: radial parts of other projectors")
m("M1p1", BRC, "bandRunEnvNC", "nlPsiAll L.eigh L.sph (rowSpecies S k.2) c.positions", "nlPsiAll L.eigh L.sph (rowSpecies S k.2) (fun _ => 0)", "C93: atoms at the origin")
m("M1p2", BRC, "bandRunEnvNC", "(fun _ => k.1) 0\n", "(fun _ => 0) 0\n", "C93: projectors at the zone centre")
m("M1p3", BRC, "bandRunEnvNC", "vol := c.vol", "vol := c.cell.det", "C93: volume of left-handed cells")
m("M1p4", BRC, "bandRunEnvNC", "qr := L.qrC", "qr := { L.qrC with q := fun w => L.qrC.q w }", "none: same program", note="equivalent edit, expected to survive")
m("M1p5", BRC, "bandLoopNC", "pathAt (fun j a => (S a).beta j) i)", "pathAt (fun j a => (S a).beta j) 0)", "C93: projectors of the first k point for all")
m("M1p6", BRC, "bandLoopNC", "if q % (if b.parallelPath then L.devices else 1) ≠ 0 then .error .typeError\n    else\n", "if q % L.devices ≠ 0 then .error .typeError\n    else\n", "C93: devices not in use")
m("M1p7", BRC, "bandLoopNC", "rows := q * K", "rows := q", "C93: one row per channel")
m("M1p8", BRC, "bandLoopNC", "values := fun i j => r i j }", "values := fun i j => r (i % q) j }", "C93: second channel")
m("M1p9", BRC, "bandLoopNC", "bands := min (maskCount E.mask) (driverBands P.valence.sum.toNat b.emptyBands)", "bands := min (maskCount E.mask) (driverBands P.valence.sum.toNat cfg.emptyBands)", "C93: requested number of bands")
m("M1pa", BRC, "bandLoopNC", "b.epoch b.fineEpoch\n            (p0, opt.init p0) pts", "b.fineEpoch 0\n            (p0, opt.init p0) pts", "C93: no steps after the first k point")
m("M1pb", BRC, "bandGridNC", "if supplied then\n", "if !supplied then\n", "C93: supplied ground state")
m("M1pc", BRC, "bandGridNC", "match ncBetas L P (gVectors c.cell n) path with", "match ncBetas L P (gVectors c.cell n) (fun i d => -path i d) with", "C93: projectors at the opposite k points")
m("M1pd", BRC, "bandGridNC", "(ncLocalAtom P c.positions) (gVectors c.cell n) c.vol \"sbt\" with", "(ncLocalAtom P (-c.positions)) (gVectors c.cell n) c.vol \"sbt\" with", "C93: mirrored local potential")
m("M1pe", BRC, "bandCrystalNC", "match bandPoints T b c.cell with", "match bandPoints T b (1 : Matrix (Fin 3) (Fin 3) ℝ) with", "C93: path of the crystal")
m("M1pf", BRC, "bandAtomsNC", "createPseudo L cfg (List.ofFn fun i => L.symbol (a.numbers i))", "createPseudo L cfg ((List.ofFn fun i => L.symbol (a.numbers i)).reverse)", "C93: files of the atoms")
m("M1pg", BRC, "bandGridNC", "then .error .typeError else .error .nameError", "then .error .typeError else .error .typeError", "C93: exception for a supplied ground state")
m("M1ph", BRC, "bandUpdateNC", "opt.step (fun q => bandTraceNC E q k) p", "opt.step (fun q => (bandTraceNC E q k).map fun x => -x) p", "C93: maximises the energies")
m("M1pi", BRC, "bandLoopNC", "L.pwDraw 1 1 (maskCount E.mask) (driverBands P.valence.sum.toNat b.emptyBands)\n", "L.pwDraw 1 1 (maskCount E.mask) (driverBands c.numElectron.toNat b.emptyBands)\n", "C93: bands of the valence electrons")

NR = "Model/NuclearRepulsion.lean"
GRD = "Model/Grid.lean"
m("M1q0", EW, "ewald", "* 2 * eta / Real.sqrt Real.pi / 2\n", "* 2 * eta / Real.sqrt Real.pi\n", "C95: self term counted twice")
m("M1q1", EW, "ewald", "* Real.pi / eta ^ 2 / vol / 2)", "* Real.pi / eta ^ 2 / vol)", "C95: background counted twice")
m("M1q2", EW, "ewaldReciprocal", "/ 4 / eta ^ 2) / ewaldGSq g k", "/ 2 / eta ^ 2) / ewaldGSq g k", "C95: width of the Gaussians")
m("M1q3", EW, "ewaldReciprocal", "* 4 * Real.pi / vol", "* 2 * Real.pi / vol", "C95: prefactor of the reciprocal sum")
m("M1q4", EW, "ewaldOverlap", "erfc (eta * ewaldNorm tau (T t))", "erfc (eta ^ 2 * ewaldNorm tau (T t))", "C95: splitting")
m("M1q5", GRD, "translationVectors", "vectorGrid A (fun _ => (translationCount A cutoff).toNat) false", "vectorGrid A (fun _ => (translationCount A cutoff).toNat) true", "C95: translations divided by the count")
m("M1q6", GRD, "translationVectors", "vectorGrid A (fun _ => (translationCount A cutoff).toNat) false", "vectorGrid A.transpose (fun _ => (translationCount A cutoff).toNat) false", "C95: columns instead of rows of the cell")
m("M1q7", GRD, "translationCount", "⌈cutoff /", "⌈-cutoff /", "C95: sign of the count")
m("M1q8", NR, "nuclearRepulsion", "ewald erfc pos q g vol eta", "ewald erfc pos q g eta vol", "C95: swapped arguments")
m("M1q9", NR, "nuclearRepulsion", "translationVectors cell cutoff", "translationVectors cell eta", "C95: number of translations ignores the cutoff")
m("M1qa", NR, "nuclearRepulsion", "if translationCount cell cutoff = 0 then", "if translationCount cell cutoff ≠ 0 then", "C95: refusal inverted")
m("M1qb", RN, "runLoop", "cfg.smearing cfg.window cfg.threshold (p, opt.init p)", "cfg.smearing cfg.window (cfg.threshold + ew) (p, opt.init p)", "C96: convergence depends on the repulsion")
m("M1qc", RN, "runUpdate", "opt.step (fun q => (gsFree E t q).map fun r => r.1) p", "opt.step (fun q => (gsFree E t q).map fun r => r.1 + 0) p", "none: same program", note="equivalent edit, expected to survive")
m("M1qd", RN, "runEnv", "eps := cfg.eps", "eps := cfg.ewaldEta", "C96: entropy uses the splitting parameter")
m("M1qe", RN, "createFreqMask", ".ok (sphericalMask A n cfg.cutoff)", ".ok (sphericalMask A n cfg.ewaldCutoff)", "C96: wrong cutoff for the mask")
m("M1qf", EW, "ewaldNorm", "+ 1e-20)", "+ 1e-4)", "C95: size of the regularisation")
m("M1qg", EW, "ewaldGSq", "if isOrigin k then 1e16 else", "if isOrigin k then 1e-16 else", "none: the term is multiplied by zero", note="equivalent edit for finite arithmetic")

m("M1r0", C, "exponentialDecay", "if rate < 1 then max v endv else min v endv", "if rate < 1 then min v endv else max v endv", "C98: schedule clipped on the wrong side")
m("M1r1", C, "temperature", "(smearing / 100) smearing i", "(smearing / 100) 0 i", "C98: end value of the schedule")
m("M1r2", C, "temperature", "if smearing > 0 then", "if smearing ≥ 0 then", "C98: smearing zero")
m("M1r3", C, "exponentialDecay", "init * rate ^ ((count : ℝ) / (steps : ℝ))", "init * rate ^ ((steps : ℝ) / (count : ℝ))", "C98: schedule reversed")
m("M1r4", RN, "runLoop", "cfg.epoch cfg.smearing cfg.window cfg.threshold (p, opt.init p)", "cfg.epoch cfg.threshold cfg.window cfg.smearing (p, opt.init p)", "C98: smearing and threshold swapped")
m("M1r5", RN, "runLoop", "cfg.epoch cfg.smearing cfg.window cfg.threshold (p, opt.init p)", "cfg.epoch 0 cfg.window cfg.threshold (p, opt.init p)", "C98: smearing ignored")
m("M1r6", RN, "runEnv", "restricted := cfg.restricted", "restricted := true", "C97: spin restriction always on")
m("M1r7", RN, "runEnv", "kpts := flatRows (kVectors c.cell kn)", "kpts := fun _ _ => 0", "C97: k mesh ignored")
m("M1r8", RN, "createFreqMask", ".ok (sphericalMask A n cfg.cutoff)", ".ok (cubicMask n)", "C97: cutoff ignored")
m("M1r9", "Model/Entropy.lean", "fermiDirac", "-∑ s, ∑ k, ∑ b,", "-2 * ∑ s, ∑ k, ∑ b,", "C98: size of the entropy")
m("M1ra", GD, "gsLoop", "upd p (temp i)", "upd p (temp (i + 1))", "C98: temperature of the next step", count=2)

EN2 = "Model/Entropy.lean"
m("M1s0", EN2, "fermiDirac", "Real.log (eps + (3 - (ns : ℝ)) / nk - occ s k b))", "Real.log (eps + (3 - (ns : ℝ)) - occ s k b))", "C99: capacity of a state ignores the k points")
m("M1s1", EN2, "fermiDirac", "((3 - (ns : ℝ)) / nk - occ s k b) * Real.log", "(2 / nk - occ s k b) * Real.log", "C98: capacity of a state with two channels")
m("M1s2", HA, "effectivePotential", "har j + ext j + vxcDensity lib xt g dens s j", "har j + ext j + (excDensity lib xt g dens j : ℂ)", "C99: energy density instead of the potential")
m("M1s3", HA, "effectivePotential", "let har := hartreeRealSpace dens g ks", "let har := hartreeRealSpace dens g false", "C99: half of the Hartree potential")
m("M1s4", HA, "hamilK", "(0.5 * t.total : ℝ)", "(t.total : ℝ)", "C99: band energies twice as large", count=2)
m("M1s5", EN, "kineticEnergyOcc", "absoluteSquare (c s k b x)) * occ s k b) / 2", "absoluteSquare (c s k b x)) * occ s k b)", "C99: kinetic energy twice as large")
m("M1s6", PS, "energyNonlocal", "hamiltonianNonlocal c psi vol s k b b * (o s k b : ℂ)).re", "hamiltonianNonlocal c psi vol s k b b).re", "C99: projector energy without occupations")
m("M1s7", PS, "hamiltonianNonlocal", "* f s k j β φ) / (vol : ℂ)", "* f s k j β φ)", "C99: normalisation of the projectors")

m("M1t0", PS, "ncOperator", "if ks then .lead d fun s j => hartreeRealSpace dens g ks j + vxcDensity lib xt g dens s j", "if ks then .lead d fun s j => hartreeRealSpace dens g false j + vxcDensity lib xt g dens s j", "C101: half of the Hartree potential in the Hamiltonian of valence electrons")
m("M1t1", PS, "ncHamiltonianMatrix", "(match bcIdx K₂ k with | some q => kin s q i j | none => 0)⟩", "(match bcIdx K₂ k with | some q => 2 * kin s q i j | none => 0)⟩", "C101: kinetic energy counted twice in the Hamiltonian")
m("M1t2", PS, "ncHamiltonianMatrix", "(match bcIdx nk k with | some q => nloc s q i j | none => 0) +", "(match bcIdx nk k with | some q => nloc s q j i | none => 0) +", "C101: transposed nonlocal matrix")
m("M1t3", PS, "energyNonlocal", "vol s k b b * (o s k b : ℂ)).re", "vol s k b b * (o s k b / 2 : ℂ)).re", "C101: half of the projector energy")

m("M1u0", BRN, "bandRunEnv", "xc := cfg.xc", "xc := \"lda_x\"", "C102: functional of the configuration in the band calculation")
m("M1u1", BRN, "bandUpdate", "bandTrace E q k", "bandTrace E q (-k)", "C102: bands optimised at the k point")
m("M1u2", C, "temperature", "smearing i\n  else 0", "smearing i\n  else -smearing", "C102: no smearing for non-positive values")

SC = "Model/SpmdCall.lean"
MN = "Model/Main.lean"
SHK = "Model/SbtHankel.lean"
m("M1v0", SC, "cpLower", "      else if d = 0 ∨ d = 1 then .ok .inlined\n      else .ok (.customCall m)", "      else if d = 0 ∨ d = 1 then .ok .inlined\n      else .ok (.customCall [])", "C103: the abstract mesh is used for decoding")
m("M1v1", SC, "cpDecode", "mesh = [] ∨ decode = false", "mesh = [] ∨ decode = true", "C103: shardings are decoded")
m("M1v2", SC, "cpCustomCall", "(p s n.length).1) n o.func x", "s) n o.func x", "C103: the shardings of the partition rule are used")
m("M1v3", SC, "cpCall", "| .ok .inlined => .ok (o.func n x)", "| .ok .inlined => .ok x", "C103: the function is run on one device")
m("M1v4", SC, "customShardingByMesh", "cpDefPartition (cpInit f) partitionRule partitionRule", "cpDefPartition (cpInit f) (fun s _ => (s, s)) partitionRule", "C103: the last axis is never divided")
m("M1v5", SC, "fftn3dOn", "customShardingByMesh (onLast fun _ => fftn)) env", "customShardingByMesh (onLast fun _ => ifftn)) env", "C103: forward transform")
m("M1v6", SC, "driverMesh", "if parallelOverK then numDevices else 1", "if parallelOverK then numDevices else 2", "C103: one device without parallel_over_k_mesh", note="the theorems hold for every size of the mesh, so a wrong size is only a different instance")
m("M1v7", SC, "cpLower", "if d = 0 ∨ d = 1 then .ok .inlined else .ok (.customCall env.threadMesh)", "if d = 0 then .ok .inlined else .ok (.customCall env.threadMesh)", "C103: inlined on one device")
m("M1v8", MN, "mainCall", 'args.config.getD "config.yaml"', 'args.load.getD "config.yaml"', "C104: the configuration file is the one of -c")
m("M1v9", MN, "mainCall", 'args.mode.getD "energy"', 'args.mode.getD "band"', "C104: default mode")
m("M1va", MN, "setEnvParams", '{ st with x64 := x64.truthy }', '{ st with x64 := st.x64 || x64.truthy }', "C104: settings do not leak between calculations")
m("M1vb", MN, "setEnvParams", '"MKL_NUM_THREADS" "4"', '"MKL_NUM_THREADS" "8"', "C104: thread variables")
m("M1vc", MN, "setEnvParams", 'let st := { st with debugNans := nans.truthy }', 'let st := { st with debugNans := !nans.truthy }', "C104: NaN checks as configured")
m("M1vd", MN, "setEnvParams", 'if x64.truthy then (logInfo st "Precision: Double', 'if !x64.truthy then (logInfo st "Precision: Double', "C104: logged precision")
m("M1ve", SHK, "sbtHankel", "offset + Real.log (r (n - 1))", "offset", "C105: points of the transform")
m("M1vf", SHK, "sbtHankel", "a j / k j ^ (1.5 : ℝ)", "a j / k j ^ (0.5 : ℝ)", "C105: power of k")
m("M1vg", SHK, "hankelStep", "/ ((n - 1 : ℕ) : ℝ)", "/ (n : ℝ)", "C105: mean step")
m("M1vh", SHK, "hankelOffset", "Real.log (r (n - 1)) - Real.log (r 0)", "Real.log (r (n - 1)) + Real.log (r 0)", "C105: the grid ends at kmax")

m("M1w0", PS, "betaSbtSingle", "  let kmax := maxRadius rad\n  .ok fun k b x => cs", "  .ok fun k b x => let kmax := maxRadius (fun x => rad (k, x)); cs", "C106: (repair) the table of a k point ends at its own largest |k+G|")
m("M1w1", PS, "betaSbtSingle", "let kmax := maxRadius rad", "let kmax := maxRadius (gRadius g)", "C106: the table covers |k+G|")
m("M1w2", BRC, "bandLoopNC", "(pathAt path i, pathAt (fun j a => (S a).beta j) i)", "(pathAt path i, pathAt (fun j a => (S a).beta j) 0)", "C106: each point has its own projectors")
m("M1w3", BRN, "bandGrid", "(p0, opt.init p0) (pathAt path) with", "(p0, opt.init p0) (fun i => pathAt path (i + 1)) with", "C106: the energies belong to their k point")
m("M1w4", BRC, "bandGridNC", "bandLoopNC L T cfg b c P n mask rep.density.2 vloc", "bandLoopNC L T cfg b c P n mask rep.density.2 0", "C106: the local potential of the ions enters the bands")
m("M1w5", BRN, "bandCrystal", "bandGrid L T cfg b c n kn mask path", "bandGrid L T cfg b c n kn (fun _ => true) path", "C106: the plane waves of the cutoff")

m("M1x0", EN, "externalReciprocal", "+ 1e-10)) * (4 * Real.pi)", "+ 1e-10)) * (2 * Real.pi)", "C107: strength of the field of the nuclei")
m("M1x1", EN, "externalReciprocal", "Complex.exp (-(Complex.I * ((∑ d, g k d * pos a d : ℝ) : ℂ)))", "Complex.exp (-(Complex.I * ((2 * ∑ d, g k d * pos a d : ℝ) : ℂ)))", "C107: rate of the phases")
m("M1x2", EN2, "fermiDirac", "  -∑ s, ∑ k, ∑ b,", "  ∑ s, ∑ k, ∑ b,", "C108: sign of the entropy")
m("M1x3", C, "temperature", "exponentialDecay 100 (epoch / 2) (smearing / 100) smearing i", "exponentialDecay 100 (epoch / 2) (smearing / 100) (2 * smearing) i", "C108: the temperature ends at the requested one")
m("M1x4", PS, "nlPsi", "(∑ d, (kpts k d + g x d) * pos d : ℝ)", "(∑ d, (kpts k d + g x d) * pos d ^ 2 : ℝ)", "C107: phases of the projectors")

m("M1y0", GRD, "monkhorstPack", "(((i d : ℕ) : ℝ) + 0.5) / (n d : ℝ) - 0.5", "(((i d : ℕ) : ℝ) + 0.5) / (n d : ℝ) - 0.25", "C109: the mesh of k points is centred")
m("M1y1", ENM, "kineticEnergyOcc", "(g x d + kpts k d) ^ 2) * absoluteSquare (c s k b x)) * occ s k b) / 2", "(g x d - kpts k d) ^ 2) * absoluteSquare (c s k b x)) * occ s k b) / 2", "C109: sign of k in the kinetic energy")
m("M1y2", XCM, "gradRho", "fftn (fun j => (rho j : ℂ)) k * Complex.I * (g k d : ℂ)", "fftn (fun j => (rho j : ℂ)) k * Complex.I * (g k d : ℂ) / (gridCount n : ℂ)", "C109: gradients of a repeated density", count=2)
m("M1z0", BR, "bcLen", "else if b = 1 then .ok a else .error .valueError", "else if b = 1 then .ok a else .ok (min a b)", "C111: mismatched numbers of bands are refused")
m("M1z1", GD, "gsState", "match bcLen (min (maskCount E.mask) nb) nb with", "match bcLen (max (maskCount E.mask) nb) nb with", "C111: number of bands that the plane waves can describe")

PY = "Model/Py.lean"
m("M1z2", GD, "gsParts", "| .ok exc => .ok ⟨kineticEnergyOcc E.g E.kpts c o, ext, har, exc⟩", "| .ok exc => .ok ⟨kineticEnergyOcc E.g E.kpts c o, har, ext, exc⟩", "C66, C79: the reported components carry the right names", tightened=["driver_attained_partial", "run_energy_partial", "driver_history", "run_history", "driver_ground_state", "run_ground_state"], note="before the tightening the statements were still true of the swapped report; only the script of one proof failed")

# definitions that no earlier edit had touched
m("M2a0", LO, "pyLower", "s.map Char.toLower", "s", "file names and headings are compared without regard to case")
m("M2a1", LO, "pySpace", "decide (9 ≤ c.toNat ∧ c.toNat ≤ 13) || ", "", "tabs and line breaks separate words")
m("M2a2", LO, "pyStrip", "((s.dropWhile pySpace).reverse.dropWhile pySpace).reverse", "s.dropWhile pySpace", "values are stripped on both sides")
m("M2a3", LO, "wordsFrom", "| [], cur => if cur = [] then [] else [cur]\n  | c :: s, cur =>\n    if pySpace c then", "| [], _ => []\n  | c :: s, cur =>\n    if pySpace c then", "the last word of a line is read")
m("M2a4", LO, "linesFrom", "| [], cur => [cur]", "| [], _ => []", "the last line is read")
m("M2a5", LO, "strIn", "s.tails.any fun t => sub.isPrefixOf t", "sub.isPrefixOf s", "a heading is found anywhere in its line")
m("M2a6", LO, "extractValue", "| _ :: rest => pyStrip rest", "| rest => pyStrip rest", "the colon is not part of the value")
m("M2a7", LO, "wordAt", "  match ws[i]? with\n  | some w => .ok w\n  | none => .error .indexError", "  .ok (ws[i]?.getD [])", "a line with too few columns is refused")
m("M2a8", LO, "readInt", "  match rd.int (String.ofList w) with\n  | some v => .ok v\n  | none => .error .valueError", "  .ok ((rd.int (String.ofList w)).getD 0)", "a word that is not an integer is refused")
m("M2a9", LO, "readFloat", "  match rd.float (String.ofList w) with\n  | some v => .ok v\n  | none => .error .valueError", "  .ok ((rd.float (String.ofList w)).getD 0)", "a word that is not a number is refused")
m("M2b0", LO, "parseValence", "(lines.filter isRow).mapM", "lines.mapM", "headings and empty lines are not entries")
m("M2b1", LO, "scanLines", "lines.zipIdx.foldl scanStep (0, 0)", "(lines.zipIdx 1).foldl scanStep (0, 0)", "position of the valence block")
m("M2b2", LO, "slice", "(xs.take b).drop a", "(xs.drop a).take b", "the slice ends at its second bound")
m("M2b3", LO, "Xml.find", "x.children.find? fun c => c.tag == tag.toList", "x.children.reverse.find? fun c => c.tag == tag.toList", "the first child with the tag is used")
m("M2b4", LO, "Xml.child", "  match x.find tag with\n  | some c => .ok c\n  | none => .error .attributeError", "  match x.find tag with\n  | some c => .ok c\n  | none => .ok x", "a missing block is refused")
m("M2b5", LO, "Xml.textOf", "| .elem _ _ none _ => .error .attributeError", "| .elem _ _ none _ => .ok []", "an empty block is refused")
m("M2b6", LO, "readIntOpt", "| none => .error .typeError\n  | some w => readInt rd w", "| none => .ok 0\n  | some w => readInt rd w", "a missing angular momentum is refused")
m("M2b7", LO, "readBeta", "x.get \"angular_momentum\".toList,\n    x.get \"cutoff_radius_index\".toList", "x.get \"cutoff_radius_index\".toList,\n    x.get \"angular_momentum\".toList", "the angular momentum of a projector")
m("M2b8", LO, "readQij", "x.get \"first_index\".toList, x.get \"second_index\".toList", "x.get \"first_index\".toList, x.get \"first_index\".toList", "indices of an augmentation function", tightened=["parseUpf_iff"], note="survived until parseUpf_iff described every block of the file")
m("M2b9", LO, "readAug", "let nqf ← readIntOpt rd (x.get \"nqf\".toList)", "let nqf ← (pure 0 : Except PyErr ℤ)", "nqf is required", tightened=["parseUpf_iff"], note="survived until parseUpf_iff described every block of the file")
m("M2c0", LO, "parseUpf", "let rab ← (mesh.child \"PP_RAB\" >>= readFloats rd)", "let rab ← (mesh.child \"PP_R\" >>= readFloats rd)", "integration weights are read from their own block")
m("M2c1", LO, "headerAt", "  | some v => .ok v\n  | none => .error .keyError\n\n/-- Python's", "  | some v => .ok v\n  | none => .ok []\n\n/-- Python's", "a missing header attribute is refused")
m("M2c2", LO, "loadAll", "  symbols.mapM fun s => do\n    let path", "  symbols.dedup.mapM fun s => do\n    let path", "one pseudopotential per atom, not per element")
m("M2c3", LO, "ncCreate", "pps.foldlM (ncStep rd junk) NcLists.empty", "pps.reverse.foldlM (ncStep rd junk) NcLists.empty", "order of the atoms")
m("M2c4", LO, "axisIdx", "else if i < 0 ∧ 0 ≤ i + n then .ok (i + n).toNat\n  else .error", "else .error", "negative indices count from the end")
m("M2c5", LO, "usCreate", "  let us ← pps.foldlM (usStep rd junk eigTop) ⟨[], [], []⟩\n", "  let us ← (pps.take 1).foldlM (usStep rd junk eigTop) ⟨[], [], []⟩\n", "every atom of an ultrasoft calculation")
m("M2d0", CF, "Cfg.attr", "  match c.find key with\n  | some v => .ok v\n  | none => .error .attributeError", "  match c.find key with\n  | some v => .ok v\n  | none => .ok .null", "a missing setting is an error")
m("M2d1", CF, "defaultConfig", "(\"spin_restricted\", .bool true)", "(\"spin_restricted\", .bool false)", "default settings")
m("M2d2", CF, "CfgVal.truthy", "| .int i => i != 0", "| .int _ => true", "truth value of 0")
m("M2d3", CF, "resolveOption", "    | [k] => some k\n    | _ => none", "    | k :: _ => some k\n    | _ => none", "an ambiguous abbreviation is refused")
m("M2d4", CF, "createOccupation", "else if s = \"gamma\" then get \"gamma\"", "else if s = \"gamma\" then get \"uniform\"", "dispatch on the method")
m("M2d5", CF, "occupationExports", "[\"idempotent_param_init\", \"idempotent\", \"uniform\"", "[\"idempotent_param_init\", \"idempotent\", \"simplex_projector\", \"uniform\"", "what the package exports")
m("M2d6", CF, "FS.ensureDir", "  | some _ => fs\n  | none => fs.write d .dir", "  | some _ => fs.write d .dir\n  | none => fs.write d .dir", "an existing entry is left alone")
m("M2d7", CF, "loadBetaSbt", "| some _ => .error .unboundLocal\n  | none =>\n    let fs' := fs.ensureDir (cacheDir pkg)\n    match fs' (cacheFile pkg) with\n    | none", "| some _ => .error .fileNotFound\n  | none =>\n    let fs' := fs.ensureDir (cacheDir pkg)\n    match fs' (cacheFile pkg) with\n    | none", "loading from an explicit file")
m("M2d8", CF, "cacheFile", "cacheDir pkg ++ \"/beta_sbt.npz\"", "cacheDir pkg", "the cache file is not its directory")
m("M2e0", K, "symbol2number", "(\"Co\", 27), (\"Ni\", 28)", "(\"Co\", 28), (\"Ni\", 27)", "atomic numbers")
m("M2e1", K, "number2symbol", "(52, \"Te\"), (53, \"I\")", "(52, \"I\"), (53, \"Te\")", "atomic symbols")
m("M2e2", K, "angstrom2bohr", "18897259886 / 10000000000", "18897259886 / 1000000000", "value of the unit")
m("M2e3", K, "ev2hartree", "367492929 / 10000000000", "367492929 / 1000000000", "value of the unit")
m("M2e4", K, "dictGet", "(d.reverse.find? fun p => p.1 = k)", "(d.find? fun p => p.1 = k)", "the last of equal keys wins", note="equivalent on tables without repeated keys")
m("M2f0", C, "allFinite", "| none :: _ => none", "| none :: l => allFinite l", "a NaN in the window spoils the standard deviation")
m("M2f1", C, "fltLt", "| none => False", "| none => True", "a comparison with NaN is false")
m("M2f2", C, "Checker.step", "| .reset => c.reset", "| .reset => c", "reset empties the window")
m("M2f3", C, "optimise", "loopFrom grad energy temp epoch.toNat 0", "loopFrom grad energy temp (epoch.toNat + 1) 0", "number of steps")
m("M2g0", CR, "Crystal.reciprocal", "  reciprocalVectors c.cell", "  reciprocalVectors c.cellᵀ", "reciprocal vectors of a crystal")
m("M2g1", CR, "aseCartesianKpts", "frac * (cell⁻¹)ᵀ", "frac * cell⁻¹", "Cartesian k points")
m("M2g2", DR, "checkPosition", "if h : r.length = 3 then .ok fun d => r.get (d.cast h.symm) else .error .valueError", "if h : r.length = 3 then .ok fun d => r.get (d.rev.cast h.symm) else .error .valueError", "coordinates keep their order")
m("M2h0", GD, "bcCoef", "    | some s', some b' => c s' k b'\n    | _, _ => fun _ => 0", "    | some s', some b' => c s' k (b'.rev)\n    | _, _ => fun _ => 0", "bands keep their order")
m("M2h1", GD, "bcOcc", "    | some s', some b' => o.get s' k b'\n    | _, _ => 0", "    | some s', some b' => o.get s' k (b'.rev)\n    | _, _ => 0", "occupations keep their order")
m("M2h2", GD, "gsCalc", "gsRun (gsDensity E) (gsTotal E) (gsParts E) ew upd epoch smearing window th p0", "gsRun (gsDensity E) (gsTotal E) (gsParts E) ew upd epoch 0 window th p0", "the temperature schedule uses the requested smearing")
m("M2h3", GD, "gsCalcNC", "(gsPartsNC E vloc psi) ew upd epoch smearing window th p0", "(gsPartsNC E vloc psi) ew upd epoch smearing epoch th p0", "the window of the convergence test")
m("M2i0", EN, "externalPotential", "ifftn (externalReciprocal pos charge g vol)", "fftn (externalReciprocal pos charge g vol)", "transform of the potential of the nuclei")
m("M2i1", EN, "hartreeEnergy", "(fun _ : Fin 1 => hartreeReciprocal rho g ks) rho vol", "(fun _ : Fin 1 => hartreeReciprocal rho g true) rho vol", "factor one half of the Hartree energy")
m("M2j0", G, "gridVectorRadius", "Real.sqrt (normSq3 (v k))", "normSq3 (v k)", "length of a vector")
m("M2j1", G, "g2rVectorGrid", "rVectors (cell.getD (g2cellVectors g)) n", "rVectors (g2cellVectors g) n", "a supplied cell is used", note="equivalent when the supplied cell belongs to the grid")
m("M2j2", G, "r2gVectorGrid", "gVectors (cell.getD (r2cellVectors r)) n", "gVectors (r2cellVectors r) n", "a supplied cell is used", note="equivalent when the supplied cell belongs to the grid")
m("M2k0", HA, "TraceOut.total", "| .perSpin t => ∑ s, t s", "| .perSpin _ => 0", "total of a spin-resolved trace")
m("M2k1", HA, "hamiltonianMatrix", "hamilK lib xt ks (c s k) pos charge dens g (kpts k) vol", "hamilK lib xt false (c s k) pos charge dens g (kpts k) vol", "the Kohn-Sham flag reaches the potential")
m("M2k2", HA, "hamiltonianMatrixBasis", "((0.5 * t.total : ℝ) : ℂ)", "((t.total : ℝ) : ℂ)", "factor one half of the Hessian", count=2)
m("M2k3", HA, "hamiltonianTrace", "| .ok ⟨_, h⟩ => .ok (traceSum keep h)", "| .ok ⟨_, h⟩ => .ok (traceSum false h)", "the trace keeps the spin axis on request")
m("M2l0", MN, "setEnviron", "if k = key then some value else e k", "if k = key then some value else none", "other environment variables are kept")
m("M2l1", MN, "logInfo", "  | .info => { st with logged := st.logged ++ [msg] }\n  | .warning => st", "  | .info => { st with logged := st.logged ++ [msg] }\n  | .warning => { st with logged := st.logged ++ [msg] }", "a quiet run prints no information")
m("M2l2", MN, "logWarning", ": ProcState := { st with logged := st.logged ++ [msg] }\n", ": ProcState := st\n", "warnings are always printed")

m("M2m0", B, "fLin", "| n :: ns, i :: is => i + n * fLin ns is", "| n :: ns, i :: is => i + (n + 1) * fLin ns is", "column-major position of an entry")
m("M2m1", B, "cUnlin", "L / ns.prod :: cUnlin ns (L % ns.prod)", "L % ns.prod :: cUnlin ns (L / ns.prod)", "row-major position of an entry")
m("M2m2", B, "stacked", "(out d).getD i default", "(out i).getD d default", "results of the devices are stacked in order")
m("M2m3", BO, "bandEigArray", "| .ok e => e ⟨b, h.2⟩\n  else 0", "| .ok e => e (Fin.rev ⟨b, h.2⟩)\n  else 0", "band energies are written in ascending order")
m("M2m4", BO, "bandEigArrayNC", "then e ⟨q, h.1⟩ ⟨b, h.2⟩ else 0", "then e ⟨q, h.1⟩ (Fin.rev ⟨b, h.2⟩) else 0", "band energies are written in ascending order")
m("M2m5", BRC, "bandRunNC", "match L.read (crystalPath L.pkgPath cfg.toRunConfig) with", "match L.read cfg.crystal with", "the crystal file is looked up in the package")
m("M2n0", BR, "reciprocalBraket0", "conj (bra k) * ket k", "bra k * ket k", "complex conjugation of the bra")
m("M2n1", BR, "realBraket0", "((vol / (gridCount n : ℝ) : ℝ) : ℂ)\n", "((vol : ℝ) : ℂ)\n", "volume element", count=1)
m("M2n2", BR, "bcIdx", "if h : a = 1 then some ⟨0, by omega⟩ else if h : k < a then some ⟨k, h⟩ else none", "if h : k < a then some ⟨k, h⟩ else none", "an axis of length one is repeated")
m("M2n3", BR, "bcGet", "  match bcIdx a k with\n  | some i => f i", "  match bcIdx a (k + 1) with\n  | some i => f i", "channels keep their order")
m("M2o0", H, "halfShape", "(halfRange (n i)).posSize + (halfRange (n i)).negSize", "(halfRange (n i)).posSize + (halfRange (n i)).posSize", "number of kept frequencies")
m("M2o1", H, "dynamicUpdateSlice", "max 0 (min (start i) ((n i : ℤ) - usize i))", "start i", "start positions are clamped", note="equivalent when the blocks fit")
m("M2p0", O, "OccArr.total", "(o.map fun a => ∑ k, ∑ b, a k b).sum", "(o.map fun a => ∑ k, ∑ b, a k b).prod", "total number of electrons")
m("M2p1", O, "sumSpin", "[fun k b => (o.map fun a => a k b).sum]", "[fun k b => (o.map fun a => a k b).sum, fun _ _ => 0]", "one channel after summing over spin")
m("M2p2", O, "sigmoid", "1 / (1 + Real.exp (-t))", "1 / (1 + Real.exp t)", "the logistic function increases")
m("M2p3", O, "simplexProjectorInit", "(((nb * nk) / 2 : ℕ) : ℝ)) * 0.1", "(((nb * nk) / 2 : ℕ) : ℝ)) * 0.01", "initial occupation parameters")
m("M2p4", O, "idempotentParamInit", "return ⟨_, _, up, draw (nk * nb) (nDown * nk).toNat⟩", "return ⟨_, _, up, draw (nk * nb) (nUp * nk).toNat⟩", "number of electrons in the second channel")
m("M2p5", O, "driverOccupation", "occParamInit draw (driverBands ne empty) ne nk spin method restricted\n", "occParamInit draw (driverBands ne empty) ne nk 0 method restricted\n", "the spin reaches the occupations")
m("M2p6", O, "driverOccupationNC", "occParamInit draw (driverBands ne empty) ne nk spin method true\n  occupation qr p ne spin method restricted", "occParamInit draw (driverBands ne empty) ne nk spin method true\n  occupation qr p ne 0 method restricted", "the spin reaches the occupations")
m("M2q0", PW, "idxList", "(List.finRange (n 1)).flatMap fun b => (List.finRange (n 2)).map fun c => mkIdx a b c", "(List.finRange (n 1)).flatMap fun b => (List.finRange (n 2)).reverse.map fun c => mkIdx a b c", "row-major order of the grid", note="the order is only visible where positions are named")
m("M2q1", PW, "gatherMask", "fun s k g b => c s k b (maskPos mask g)", "fun s k g b => c s k b (maskPos mask g.rev)", "gathering undoes scattering")
m("M2q2", PW, "squeezeCoefficient", "    Except PyErr (Fin ns → Fin nk → Fin (maskCount mask) → Fin nb → ℂ) :=\n  .error .attributeError", "    Except PyErr (Fin ns → Fin nk → Fin (maskCount mask) → Fin nb → ℂ) :=\n  .ok (gatherMask mask _c)", "squeezing raises (recorded disagreement)")
m("M2q3", PW, "densityGridBands", "absoluteSquare (waveGrid c vol s k b j)", "absoluteSquare (waveGrid c vol s k b j) / vol", "density of a band")
m("M2r0", P, "Ext.div", "if b = 0 then (if 0 < a then .posInf", "if b = 0 then (if 0 ≤ a then .posInf", "zero over zero is NaN")
m("M2r1", P, "Ext.ltFin", "| .negInf => true\n  | .nan => false", "| .negInf => true\n  | .nan => true", "comparison with NaN is false", count=1)
m("M2r2", P, "argmaxBool", "((List.range n).find? p).getD 0", "((List.range n).find? p).getD n", "argmax of an array without true entries")
m("M2r3", P, "cumsum", "(l.take (i + 1)).sum", "(l.take i).sum", "cumulative sum includes its position")
m("M2s0", PS, "nlLMax", "Finset.univ.sup fun a => Finset.univ.sup (sp a).ang", "0", "largest angular momentum of the projectors")
m("M2s1", PS, "hamiltonianLocal", "expectationFull w (.grid (ifftn v)) vol none \"real\"", "expectationFull w (.grid (fftn v)) vol none \"real\"", "local potential on the real grid")
m("M2s2", PS, "energyLocal", "reciprocalBraket (fun _ : Fin 1 => v) rho vol", "reciprocalBraket (fun _ : Fin 1 => fun k => 2 * v k) rho vol", "energy of the local part")
m("M2s3", PS, "ncXcOperator", "if ks then .lead d fun s j => vxcDensity lib xt g dens s j\n  else .grid fun j => (excDensity lib xt g dens j : ℂ)", "if !ks then .lead d fun s j => vxcDensity lib xt g dens s j\n  else .grid fun j => (excDensity lib xt g dens j : ℂ)", "which exchange-correlation operator is used")
m("M2s4", PS, "gRadius", "Real.sqrt (∑ d, g k d ^ 2)", "∑ d, g k d ^ 2", "length of a reciprocal vector")
m("M2t0", PY, "pyBound", "if x < 0 then (max (x + len) 0).toNat else min x.toNat len", "if x < 0 then 0 else min x.toNat len", "negative slice bounds count from the end")
m("M2t1", PY, "inSlice", "decide (pyBound len start ≤ j)", "decide (pyBound len start < j)", "a slice contains its first position")
m("M2u0", RN, "runGrid", "if (idxList kn).length % (if cfg.parallelK then L.devices else 1) ≠ 0 then .error .valueError\n      else runLoop", "if (idxList kn).length % L.devices ≠ 0 then .error .valueError\n      else runLoop", "the mesh need not be divisible by the devices without parallelism")
m("M2u1", RN, "runAtoms", "match createCrystal a cfg.spin with", "match createCrystal a 0 with", "the requested spin reaches the crystal")
m("M2u2", RN, "runCalc", "match L.read (crystalPath L.pkgPath cfg) with", "match L.read cfg.crystal with", "the crystal file is looked up in the package")
m("M2u3", NC, "samplesOf", "((xs.getD i 0 : ℚ) : ℝ)", "((xs.getD (i + 1) 0 : ℚ) : ℝ)", "samples keep their positions")
m("M2u4", NC, "runAtomsNC", "(List.ofFn fun i => L.symbol (a.numbers i))", "(List.ofFn fun i => L.symbol (a.numbers i)).dedup", "one pseudopotential per atom")
m("M2u5", NC, "runGridNC", "(nlPsiAll L.eigh L.sph (fun a : Fin m => ncSpecies P bs a) c.positions\n                (gVectors c.cell n) (flatRows (kVectors c.cell kn)))", "(nlPsiAll L.eigh L.sph (fun a : Fin m => ncSpecies P bs a) c.positions\n                (gVectors c.cell n) (flatRows fun _ : Idx kn => (0 : Fin 3 → ℝ)))", "projectors at the k points of the mesh")
m("M2v0", SB, "simpsonWeights", "simpsonLoop drho rr (nr - 1) fun _ => 0", "simpsonLoop drho rr (nr - 2) fun _ => 0", "integration weights cover the mesh")
m("M2v1", SF, "kk", "Real.exp S.kappaMin * Real.exp (j * S.drho)", "Real.exp S.kappaMin * Real.exp (2 * j * S.drho)", "wave-number mesh")
m("M2v2", SF, "rfft", "Complex.exp (-(2 * Real.pi", "Complex.exp ((2 * Real.pi", "sign of the forward transform")
m("M2v3", SF, "sbtPrefactor", "if norm then Real.sqrt (2 / Real.pi) else 1", "if norm then 1 else Real.sqrt (2 / Real.pi)", "normalisation of the transform")
m("M2v4", SF, "sbtDir", "else if direction = -1 then .ok .inverse", "else if direction = 0 then .ok .inverse", "direction of the transform")
m("M2v5", SF, "sbtTable", "else if lmax < 1 then .error .indexError", "else if lmax < 0 then .error .indexError", "smallest table")
m("M2v6", SF, "xx", "Real.exp (S.rhoMin + S.kappaMin + p * S.drho)", "Real.exp (S.rhoMin - S.kappaMin + p * S.drho)", "mesh of products")
m("M2w0", SR, "realMod", "a - b * ⌊a / b⌋", "a - b * ⌈a / b⌉", "range of the azimuth")
m("M2w1", U, "isCloseZero", "decide (|x| ≤ tol)", "decide (x ≤ tol)", "negative imaginary parts are refused")
m("M2w2", U, "safeReal", "| .real xs => .ok (.real xs)", "| .real xs => .ok (.real xs.tail)", "a real array is returned unchanged")
m("M2w3", U, "vmapLoop", "| n + 1, f => vmapLoop n (vmap1 0 0 f)", "| n + 1, f => vmapLoop n (vmap1 n 0 f)", "axes are mapped in order")
m("M2w4", U, "readSlots", "| some (.error e) => some (.error e)", "| some (.error _) => readSlots p is", "an exception of a worker is raised")
m("M2w5", U, "Pool.complete", "if j = i then tasks[i]?.map f else p j", "if j = i then tasks[0]?.map f else p j", "each worker computes its own task")
m("M2w6", U, "preCalcBeta", "if cpus / 2 = 0 then", "if cpus = 0 then", "number of workers")
m("M2w7", U, "betaSbtGrid", "  | _, _, _, _ => .ok []", "  | _, _, _, _ => .error .valueError", "lists are zipped to the shortest")
m("M2x0", XC, "splitPlus", "(s.toList.splitOn '+')", "(s.toList.splitOn ',')", "functionals are joined with a plus")
m("M2x1", XC, "isExchange", "pyIn \"_x\" xt", "pyIn \"_c\" xt", "recognition of exchange functionals")
m("M2x2", XC, "excLda2", "(xts.map fun xt => ldaPoint2 lib xt up dn).sum", "(xts.map fun xt => ldaPoint2 lib xt dn up).sum", "order of the spin channels")
m("M2x3", XC, "excGga1", "(xts.map fun xt => ggaPoint1 lib xt rho sigma).sum", "((xts.take 1).map fun xt => ggaPoint1 lib xt rho sigma).sum", "all functionals are added")
m("M2x4", XC, "excGga2", "ggaPoint2 lib xt up dn suu sud sdd).sum", "ggaPoint2 lib xt up dn suu sdd sud).sum", "order of the gradients")
m("M2x5", XC, "laplRho", "ifftn fun k => -1 * ((∑ d, g k d ^ 2 : ℝ) : ℂ)", "ifftn fun k => ((∑ d, g k d ^ 2 : ℝ) : ℂ)", "sign of the Laplacian")
m("M2x6", XC, "whereGt", "if sigma > 0 then t else 0", "if sigma ≥ 0 then t else 0", "points without gradient are skipped")
m("M2x7", XC, "vxcGga2", "let tCrossDn : Idx n → ℝ := fun j => dUD j * up j", "let tCrossDn : Idx n → ℝ := fun j => dUD j * dn j", "cross term of the second channel")
m("M2x8", XC, "xcDensity", "if ks then vxcDensity lib xt g rho s j else (excDensity", "if !ks then vxcDensity lib xt g rho s j else (excDensity", "meaning of the Kohn-Sham flag")
m("M2x9", XC, "ifftnYZD", "((n 1 * n 2 * 3 : ℕ) : ℂ)", "((n 0 * n 1 * n 2 : ℕ) : ℂ)", "which axes the transform covers")
m("M2y0", SP, "coreTransform", "tr (vec3 a b c) (fun t => f (t 0) (t 1) (t 2)) (vec3Idx h)", "tr (vec3 a b c) (fun t => f (t 0) (t 2) (t 1)) (vec3Idx h)", "axes of the transform")
m("M2y1", SP, "ifftnJvp", "(fun a => ifftn (x a), fun a => ifftn (t a))", "(fun a => ifftn (x a), fun a => fftn (t a))", "tangent of the transform")
m("M2y2", SP, "fftnTranspose", "Fin m → Idx n → ℂ := fun a => fftn (ct a)", "Fin m → Idx n → ℂ := fun a => ifftn (ct a)", "transpose of the transform")
m("M2y3", SP, "moveShape", "n.getD bd 0 :: n.eraseIdx bd", "n.getD 0 0 :: n.eraseIdx bd", "batch axis of the transform")
m("M2y4", SP, "fftDtype", "| .f64 => .c128", "| .f64 => .c64", "precision of the result")
m("M2y5", SP, "localShape", "List.zipWith (· / ·) n parts", "List.zipWith (fun a _ => a) n parts", "shape of a block")
m("M2y6", SP, "globalIdx", "(b * m + l) :: globalIdx ms bs ls", "(b + l) :: globalIdx ms bs ls", "position of a block")
m("M2y7", SP, "uniformShardShape", "| .ok r => .ok (d / p :: r)\n\n", "| .ok r => .ok (d :: r)\n\n", "shape of a shard", count=1)
m("M2y8", SC, "cpDefPartition", "{ o with partition := some partition, infer := some infer, decode := some decode }", "{ o with partition := some infer, infer := some partition, decode := some decode }", "partition and inference rules", note="equivalent when the two rules agree")
m("M2y9", SC, "axesSize", "Prod.snd).getD 1).prod", "Prod.snd).getD 1).sum", "number of shards of an axis")
m("M2z0", SH, "bcastRev", "| xs, [] => .ok xs", "| _, [] => .ok []", "broadcasting keeps leading axes")
m("M2z1", SH, "labelDim", "          match bcLen d d' with\n          | .error e => .error e\n          | .ok m => .ok (some m)\n      else .ok r", "          .ok (some d)\n      else .ok r", "repeated labels must agree", note="the pattern keeps d' unused")
m("M2z2", SH, "sumRange", "if j ≤ s.length then .ok (s.take i ++ s.drop j) else .error .valueError", "if j ≤ s.length then .ok (s.take i ++ s.drop (j + 1)) else .error .valueError", "axes that are summed")
m("M2z3", SH, "matmulSh", "| some m, [k] => if m = k then .ok a.dropLast else .error .typeError", "| some m, [k] => if m = k then .ok a else .error .typeError", "shape of a matrix-vector product")
m("M2z4", SH, "ldaSh", "let rows := if rho.head? = some 2 then 2 else 1", "let rows := 1", "two spin channels are handled separately")
m("M2z5", SH, "effectiveSh", "let dens := if dens.length = dim then 1 :: dens else dens", "let dens := dens", "a density without spin axis is accepted")
m("M2z6", SH, "kineticSh", "let e ← sumRange 3 (dim + 3) p", "let e ← sumRange 2 (dim + 2) p", "shape of the kinetic energy per band")
m("M2z7", SH, "bandEnergySh", "if k ≠ e then .error .assertionError else bcast e k", "bcast e k", "the comparison of the two shapes")
m("M2z8", SH, "ewaldSh", "if v = charge then .ok [] else .error .typeError", "if v = charge then .ok charge else .error .typeError", "the nuclear repulsion is a scalar")
m("M2z9", SH, "reciprocalBraketSh", "if bra.drop (bra.length - 3) ≠ ket.drop (ket.length - 3) then .error .valueError", "if bra ≠ ket then .error .valueError", "leading axes may differ")
WS = "Model/Workspace.lean"
m("M3a0", WS, "DirStep.apply", "if f = s.name then", "if f.length = s.name.length then", "a save changes one file only")
m("M3a1", WS, "DirStep.apply", "| .create _ => some .torn", "| .create _ => d f", "a killed save leaves the old file whole")
m("M3a2", WS, "BandCall.steps", "| .error _ => []", "| .error _ => [.create \"\"]", "a failed call leaves the directory as it was")
m("M3a3", WS, "BandCall.steps", "[.create name, .fill name x]", "[.fill name x, .create name]", "a finished call leaves its array")
m("M3a4", WS, "Attempt.steps", "| some k => a.call.steps.take k", "| some k => a.call.steps.drop k", "what a killed call has done")
m("M3a5", WS, "BandCall.outcome", "(f.name, .rows f.rows f.bands f.values)", "(f.name ++ \".tmp\", .rows f.rows f.bands f.values)", "name of the file")
m("M3a6", WS, "WorkDir.after", "s.foldl DirStep.apply d", "s.foldr (fun s d => DirStep.apply d s) d", "the last save wins")
m("M3a7", WS, "DirStep.name", "| .fill name _ => name", "| .fill name _ => name ++ \".npy\"", "the array goes to the file that was created")
CR = "Model/CacheRace.lean"
m("M3b0", CR, "writeByte", "if w.1 < f.length then f.set w.1 w.2", "if w.1 ≤ f.length then f.set w.1 w.2", "bytes at the end of the file are written")
m("M3b1", CR, "writeByte", "List.replicate (w.1 - f.length) 0 ++ [w.2]", "[w.2]", "a write behind the end keeps its position")
m("M3b2", CR, "saveAction", "| .check => (d, if d.dir then .opening else .mkdir)", "| .check => (d, .mkdir)", "an existing directory is not made again")
m("M3b3", CR, "saveAction", "if d.dir then (d, .raised .osError) else ({ d with dir := true }, .opening)", "({ d with dir := true }, .opening)", "the race for the directory", note="makedirs(exist_ok=True): the refuted part changes")
m("M3b4", CR, "saveAction", "({ d with file := some [] }, .writing w)", "(d, .writing w)", "the file is emptied when it is opened")
m("M3b5", CR, "saveAction", "({ d with file := some (writeByte (d.file.getD []) b) }, .writing rest)", "({ d with file := some (writeByte (d.file.getD []) b) }, .writing rest.tail)", "all bytes are written")
m("M3b6", CR, "CacheSystem.step", "Function.update s.at_ i (saveAction (w i) s.disk (s.at_ i)).2", "fun _ => (saveAction (w i) s.disk (s.at_ i)).2", "a step moves one process only")
m("M3b7", CR, "loadCache", "| none => .error .fileNotFound\n    | some f => F.decode f", "| none => .error .fileNotFound\n    | some f => F.decode f.reverse", "the bytes are read in order")

m("M3c0", RN, "firstUpdate", "      | .ok _ => .error f\n", "      | .ok _ => rest\n", "an optimiser that misses its parameters raises")
m("M3c1", RN, "firstUpdate", "    if 0 < epoch then", "    if 1 < epoch then", "one epoch is enough to raise")
m("M3c2", RN, "firstUpdate", "      | .error e => .error e\n      | .ok _ => .error f\n", "      | .error _ => .error f\n      | .ok _ => .error f\n", "an error of the energy comes first")
m("M3c3", RN, "runLoop", "firstUpdate L.updateFault cfg.epoch (gsFree E", "firstUpdate none cfg.epoch (gsFree E", "the fault of the optimiser is seen")
m("M3c4", NC, "runLoopNC", "firstUpdate L.updateFault cfg.epoch (gsFreeNC", "firstUpdate none cfg.epoch (gsFreeNC", "the fault of the optimiser is seen with pseudopotentials")

m("M3d0", O, "idempotentOcc", "[fun k b => idemChannel qr p.up k b / (nk : ℝ), fun k b => idemChannel qr p.down k b / (nk : ℝ)]", "[fun k b => idemChannel qr p.down k b / (nk : ℝ), fun k b => idemChannel qr p.up k b / (nk : ℝ)]", "C133: each channel fills its own levels")
m("M3d1", O, "idempotentOcc", "(idemChannel qr p.up k b + idemChannel qr p.down k b) / (nk : ℝ)", "(idemChannel qr p.up k b + idemChannel qr p.up k b) / (nk : ℝ)", "C133: both channels have a gradient")
m("M3d2", O, "idemChannel", "unravel fun i => ∑ j, (qr.q w) i j * (qr.q w)ᵀ j i", "unravel fun i => ∑ j, w i j * wᵀ j i", "C133: the occupations belong to a projector")

m("M3e0", BO, "bandTrace", "  | .ok t => .ok t.total", "  | .ok t => .ok (-t.total)", "C136: the minimised value falls to the sum of the lowest energies")
m("M3e1", BO, "bandEig", "  | .ok H => .ok (E.eigh.vals H)", "  | .ok H => .ok (fun b => E.eigh.vals H (Fin.rev b))", "C136: each energy converges to the level of its own band")

m("M3f0", BO, "bandTraceNC", "  ncHamiltonianTrace E.lib E.xc true (pwCoeff E.qr E.mask p) E.dens E.vloc (fun _ : Fin 1 => E.psi k) E.g\n    (fun _ => k.1) E.vol", "  (ncHamiltonianTrace E.lib E.xc true (pwCoeff E.qr E.mask p) E.dens E.vloc (fun _ : Fin 1 => E.psi k) E.g\n    (fun _ => k.1) E.vol).map fun x => -x", "C137: descent finds the lowest energy, not the highest")
m("M3f1", BO, "bandEig", "  | .ok H => .ok (E.eigh.vals H)", "  | .ok H => .ok (E.eigh.vals (H + H))", "C137: the reported energy converges to the lowest eigenvalue, not to twice it")
