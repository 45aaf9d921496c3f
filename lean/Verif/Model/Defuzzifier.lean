/-
Defuzzifiers (src/defuzzifier).
-/
import Verif.Model.Term
import Mathlib.Data.List.Dedup

namespace FL
open Scalar
variable {S : Type} [Scalar S]

/-- classes derived from `IntegralDefuzzifier` -/
inductive IntegralKind
  | bisector | centroid | largestOfMaximum | smallestOfMaximum | meanOfMaximum
  deriving DecidableEq, Repr

/-- classes derived from `WeightedDefuzzifier` -/
inductive WeightedKind
  | average | sum
  deriving DecidableEq, Repr

/-- `WeightedDefuzzifier::Type` -/
inductive WeightedType
  | automatic | takagiSugeno | tsukamoto
  deriving DecidableEq, Repr

inductive Defuzzifier
  | integral (k : IntegralKind) (resolution : Int)
  | weighted (k : WeightedKind) (type : WeightedType)
  deriving DecidableEq, Repr

namespace Integral

/-- the sampled points and their memberships: `x = minimum + (i + 0.5) * dx`, `y = membership(x)`
for `i < resolution`, src/defuzzifier/Centroid.cpp:36-41 and likewise in the other classes.
Simplified: the samples are computed before they are used; the code interleaves both, which cannot
be observed because an exception aborts everything. -/
def samples (mu : S → Except Err S) (mn mx : S) (resolution : Int) : Except Err (List (S × S)) :=
  let dx := (mx - mn) / lit (resolution : Rat)
  (List.range resolution.toNat).mapM fun (i : Nat) => do
    let x := mn + (lit (i : Rat) + lit (1/2)) * dx
    let y ← mu x
    .ok (x, y)

/-- `Centroid::defuzzify`, src/defuzzifier/Centroid.cpp:38-47. -/
def centroid (l : List (S × S)) : S :=
  let s := l.foldl (fun (s : S × S) p => (s.1 + p.2 * p.1, s.2 + p.2)) (lit 0, lit 0)
  s.1 / s.2

/-- `LargestOfMaximum::defuzzify`, src/defuzzifier/LargestOfMaximum.cpp:38-48. -/
def largest (l : List (S × S)) : S :=
  (l.foldl (fun (s : S × S) p => if ge p.2 s.2 then p else s) (nan, ninf)).1

/-- `SmallestOfMaximum::defuzzify`, src/defuzzifier/SmallestOfMaximum.cpp:38-48. -/
def smallest (l : List (S × S)) : S :=
  (l.foldl (fun (s : S × S) p => if gt p.2 s.2 then p else s) (nan, ninf)).1

/-- the maxima collected by `MeanOfMaximum::defuzzify`, src/defuzzifier/MeanOfMaximum.cpp:38-49. -/
def maxima (l : List (S × S)) : List S :=
  (l.foldl (fun (s : List S × S) p =>
    if gt p.2 s.2 then ([p.1], p.2)
    else if Scalar.eq p.2 s.2 then (s.1 ++ [p.1], s.2)
    else s) ([], ninf)).1

/-- `MeanOfMaximum::defuzzify`, src/defuzzifier/MeanOfMaximum.cpp:50-51. -/
def meanOfMaxima (l : List (S × S)) : S := Op.mean (maxima l)

/-- the cumulative sums of the finite memberships, src/defuzzifier/Bisector.cpp:37-47 -/
def partialSums : S → List (S × S) → List S
  | _, [] => []
  | s, p :: l =>
    let s' := if Op.isFinite p.2 then s + p.2 else s
    s' :: partialSums s' l

/-- `Bisector::defuzzify`, src/defuzzifier/Bisector.cpp:37-63. -/
def bisector (l : List (S × S)) : S :=
  let ysum := partialSums (lit 0) l
  let sum := ysum.getLast?.getD (lit 0)
  let normal := ysum.map fun y => abs (y / sum - lit (1/2))
  let least := normal.foldl (fun m y => if lt y m then y else m) inf
  Op.mean (((l.map Prod.fst).zip normal).filterMap fun p => if Scalar.eq least p.2 then some p.1 else none)

/-- `defuzzify(term, minimum, maximum)` of the integral defuzzifiers, for the membership function
`mu` of the term.  `Bisector` reserves memory for `resolution` elements, which fails when that is
negative (`std::length_error`). -/
def defuzzify (k : IntegralKind) (resolution : Int) (mu : S → Except Err S) (mn mx : S) : Except Err S :=
  if !Op.isFinite (mn + mx) then .ok nan
  else if k = .bisector ∧ resolution < 0 then .error .outOfRange
  else do
    let l ← samples mu mn mx resolution
    .ok (match k with
      | .bisector => bisector l
      | .centroid => centroid l
      | .largestOfMaximum => largest l
      | .smallestOfMaximum => smallest l
      | .meanOfMaximum => meanOfMaxima l)

end Integral

namespace Weighted

/-- `WeightedDefuzzifier::inferType(const Term*)` on a term of a variable,
src/defuzzifier/WeightedDefuzzifier.cpp:112-118. -/
def inferTerm (t : Term S) : WeightedType :=
  match t.kind with
  | .constant _ => .takagiSugeno
  | .linear _ _ => .takagiSugeno
  | .function _ => .takagiSugeno
  | _ => if t.isMonotonic then .tsukamoto else .automatic

/-- `WeightedDefuzzifier::inferType` on a list of terms,
src/defuzzifier/WeightedDefuzzifier.cpp:87-100: the set of the types of the terms. -/
def inferTypes (ts : List (Term S)) : Except Err WeightedType :=
  match (ts.map inferTerm).dedup with
  | [] => .ok .automatic
  | [t] => .ok t
  | _ => .error .unsupported

/-- the sums computed by `takagiSugeno` and `tsukamoto`: `sum w * z` and `sum w`,
src/defuzzifier/WeightedAverage.cpp:36-62, src/defuzzifier/WeightedSum.cpp:36-58. -/
def sums (z : Activated S → Except Err S) (l : List (Activated S)) : Except Err (S × S) :=
  l.foldlM (fun s a => do
    let z ← z a
    .ok (s.1 + a.degree * z, s.2 + a.degree)) (lit 0, lit 0)

/-- `WeightedDefuzzifier::defuzzify`, src/defuzzifier/WeightedDefuzzifier.cpp:121-148, on the fuzzy
output of a variable. -/
def defuzzify (ctx : Ctx S) (k : WeightedKind) (type : WeightedType) (g : Aggregated S) : Except Err S :=
  if g.terms.isEmpty then .ok nan
  else do
    let type ← if type = .automatic then inferTypes (g.terms.map Activated.term) else .ok type
    let z : Activated S → Except Err S ← match type with
      | .takagiSugeno => .ok fun (a : Activated S) => a.term.membership ctx a.degree
      | .tsukamoto => .ok fun (a : Activated S) => a.term.tsukamoto a.degree
      | .automatic => .error .unsupported
    let grouped ← g.grouped
    let s ← sums z grouped.terms
    .ok (match k with
      | .average => s.1 / s.2
      | .sum => s.1)

end Weighted

/-- `Defuzzifier::defuzzify` on the fuzzy output of a variable. -/
def Defuzzifier.defuzzify (ctx : Ctx S) (d : Defuzzifier) (g : Aggregated S) (mn mx : S) : Except Err S :=
  match d with
  | .integral k r => Integral.defuzzify k r (g.membership ctx) mn mx
  | .weighted k t => Weighted.defuzzify ctx k t g

end FL
