import Mathlib.Data.List.Infix
import Mathlib.Algebra.Order.Ring.Rat
import Mathlib.Data.List.Forall2

/-
Specification for C50 (UPF files), apart from the model.
-/
namespace Jrystal.Spec

/-- ASCII white space. -/
def White (c : Char) : Prop := c.toNat ∈ [9, 10, 11, 12, 13, 28, 29, 30, 31, 32]

/-- `Tokens s ws`: the words of `s`, separated by white space, are `ws` in order. -/
inductive Tokens : List Char → List (List Char) → Prop
  | blank (s : List Char) (h : ∀ c ∈ s, White c) : Tokens s []
  | word (pre w rest : List Char) (ws : List (List Char)) (hp : ∀ c ∈ pre, White c) (hw : w ≠ [])
      (hn : ∀ c ∈ w, ¬White c) (hr : rest = [] ∨ ∃ c r, rest = c :: r ∧ White c) (h : Tokens rest ws) :
      Tokens (pre ++ w ++ rest) (w :: ws)

/-- The text joined from lines. -/
def unlines (ls : List (List Char)) : List Char := ['\n'].intercalate ls

/-- The line contains the phrase, ignoring letter case. -/
def Mentions (phrase : String) (line : List Char) : Prop := phrase.toList <:+: line.map Char.toLower

/-- Same text up to letter case. -/
def SameLetters (s t : List Char) : Prop := s.map Char.toLower = t.map Char.toLower

/-- The element of a pseudopotential file: its name up to the first dot. -/
def fileElement (name : List Char) : List Char := name.takeWhile (· ≠ '.')

/-- A file name of the form `<element>. ... upf`, ignoring letter case. -/
def IsUpfOf (element name : List Char) : Prop :=
  SameLetters (fileElement name) element ∧ '.' ∈ name ∧ "upf".toList <:+ name.map Char.toLower

/-- The path of a file in a directory. -/
def pathOf (dir name : List Char) : List Char :=
  if dir.getLast? = some '/' then dir ++ name else dir ++ '/' :: name

/-- The values at the mesh points with positive radius, in mesh order. -/
def onPositive {α : Type*} (r : List ℚ) (x : List α) : List α :=
  (r.zip x).filterMap fun p => if 0 < p.1 then some p.2 else none

end Jrystal.Spec
