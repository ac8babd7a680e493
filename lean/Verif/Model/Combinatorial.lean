/-
Model of `pycomplex/math/combinatorial.py`.

Generators are modelled by the list of the items they yield, in order.
-/
namespace Verif.Model

/-- `combinations(L, n)`, `pycomplex/math/combinatorial.py` lines 4-43.
Yields pairs of parity and chosen items.  The guard `n == 0 or n > len(L)` yields one
empty combination; otherwise the loop over `i in range(len(L) - n + 1)` recurses on
`L[i+1:]` and prepends `L[i]`. -/
def combinations {α : Type} : (n : Nat) → List α → List (Nat × List α)
  | 0, _ => [(0, [])]
  | n + 1, L =>
    if n + 1 > L.length then [(0, [])]
    else (List.range (L.length - (n + 1) + 1)).flatMap fun i =>
      match L[i]? with
      | none => []          -- unreachable: `i ≤ len(L) - n - 1`
      | some x =>
        (combinations n (L.drop (i + 1))).map fun pt => ((pt.1 + i) % 2, x :: pt.2)

/-- `permutations(L)`, `pycomplex/math/combinatorial.py` lines 46-79.
The empty list yields nothing (neither branch applies). -/
def permutations {α : Type} : List α → List (Nat × List α)
  | [] => []
  | [a] => [(0, [a])]
  | h :: a :: t =>
    (permutations (a :: t)).flatMap fun pp =>
      (List.range (pp.2.length + 1)).map fun i =>
        ((pp.1 + i) % 2, pp.2.take i ++ [h] ++ pp.2.drop i)

end Verif.Model
