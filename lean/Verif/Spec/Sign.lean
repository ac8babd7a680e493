/-
Specification of permutation signs by counting inversions.  Independent of the model.
-/
namespace Verif.Spec

/-- number of pairs of positions `i < j` of the list with `l[j] < l[i]` -/
def inversions : List Nat → Nat
  | [] => 0
  | a :: t => t.countP (· < a) + inversions t

/-- sign of an arrangement of numbers: `0` if a number is repeated, else `(-1)^inversions` -/
def sgn (l : List Nat) : Int :=
  if l.Nodup then (-1) ^ inversions l else 0

/-- sign of the rearrangement `l` of `c`: the sign of the list of positions that the entries of
`l` have in `c`; zero if `l` is not a rearrangement of `c`. -/
def relSign {α : Type} [BEq α] [LawfulBEq α] (c l : List α) : Int :=
  if l.isPerm c then sgn (l.map (fun x => c.idxOf x)) else 0

end Verif.Spec
