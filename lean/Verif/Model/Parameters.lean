/-
The text of the parameters of terms: `parameters()` and `configure()` of every class in src/term.
-/
import Verif.Model.Term

namespace FL
open Scalar
variable {S : Type}

namespace Shape

/-- `className()` of each class -/
def className : Shape S → Str
  | bell .. => cs! "Bell"
  | binary .. => cs! "Binary"
  | concave .. => cs! "Concave"
  | cosine .. => cs! "Cosine"
  | gaussian .. => cs! "Gaussian"
  | gaussianProduct .. => cs! "GaussianProduct"
  | piShape .. => cs! "PiShape"
  | ramp .. => cs! "Ramp"
  | rectangle .. => cs! "Rectangle"
  | sigmoid .. => cs! "Sigmoid"
  | sigmoidDifference .. => cs! "SigmoidDifference"
  | sigmoidProduct .. => cs! "SigmoidProduct"
  | spike .. => cs! "Spike"
  | sShape .. => cs! "SShape"
  | trapezoid .. => cs! "Trapezoid"
  | triangle .. => cs! "Triangle"
  | zShape .. => cs! "ZShape"

/-- the parameters in the order in which `parameters()` writes them: Bell.cpp:40-43,
Binary.cpp:43-46, Concave.cpp:58-61, Cosine.cpp:33-36, Gaussian.cpp:39-42,
GaussianProduct.cpp:55-58, PiShape.cpp:64-67, Ramp.cpp:64-67, Rectangle.cpp:41-44,
Sigmoid.cpp:51-54, SigmoidDifference.cpp:46-49, SigmoidProduct.cpp:45-48, Spike.cpp:39-42,
SShape.cpp:65-68, Trapezoid.cpp:70-73, Triangle.cpp:59-62, ZShape.cpp:65-68. -/
def written : Shape S → List S
  | bell c w s => [c, w, s]
  | binary s d => [s, d]
  | concave i e => [i, e]
  | cosine c w => [c, w]
  | gaussian m s => [m, s]
  | gaussianProduct ma sa mb sb => [ma, sa, mb, sb]
  | piShape bl tl tr br => [bl, tl, tr, br]
  | ramp s e => [s, e]
  | rectangle s e => [s, e]
  | sigmoid i s => [i, s]
  | sigmoidDifference l r f t => [l, r, f, t]
  | sigmoidProduct l r f t => [l, r, f, t]
  | spike c w => [c, w]
  | sShape s e => [s, e]
  | trapezoid a b c d => [a, b, c, d]
  | triangle a b c => [a, b, c]
  | zShape s e => [s, e]

/-- the `required` number of values in `configure()` of each class (lines at `setAt`) -/
def required : Shape S → Nat
  | bell .. => 3
  | binary .. => 2
  | concave .. => 2
  | cosine .. => 2
  | gaussian .. => 2
  | gaussianProduct .. => 4
  | piShape .. => 4
  | ramp .. => 2
  | rectangle .. => 2
  | sigmoid .. => 2
  | sigmoidDifference .. => 4
  | sigmoidProduct .. => 4
  | spike .. => 2
  | sShape .. => 2
  | trapezoid .. => 4
  | triangle .. => 3
  | zShape .. => 2

/-- the setter called with the value at position `i` in `configure()`: Bell.cpp:45-60,
Binary.cpp:48-62, Concave.cpp:63-78, Cosine.cpp:38-52, Gaussian.cpp:44-58,
GaussianProduct.cpp:60-76, PiShape.cpp:69-85, Ramp.cpp:69-84, Rectangle.cpp:46-60,
Sigmoid.cpp:56-71, SigmoidDifference.cpp:51-67, SigmoidProduct.cpp:50-66, Spike.cpp:44-58,
SShape.cpp:70-85, Trapezoid.cpp:75-91, Triangle.cpp:64-79, ZShape.cpp:70-85. -/
def setAt : Shape S → Nat → S → Shape S
  | bell _ w s, 0, x => bell x w s
  | bell c _ s, 1, x => bell c x s
  | bell c w _, 2, x => bell c w x
  | binary _ d, 0, x => binary x d
  | binary s _, 1, x => binary s x
  | concave _ e, 0, x => concave x e
  | concave i _, 1, x => concave i x
  | cosine _ w, 0, x => cosine x w
  | cosine c _, 1, x => cosine c x
  | gaussian _ s, 0, x => gaussian x s
  | gaussian m _, 1, x => gaussian m x
  | gaussianProduct _ sa mb sb, 0, x => gaussianProduct x sa mb sb
  | gaussianProduct ma _ mb sb, 1, x => gaussianProduct ma x mb sb
  | gaussianProduct ma sa _ sb, 2, x => gaussianProduct ma sa x sb
  | gaussianProduct ma sa mb _, 3, x => gaussianProduct ma sa mb x
  | piShape _ tl tr br, 0, x => piShape x tl tr br
  | piShape bl _ tr br, 1, x => piShape bl x tr br
  | piShape bl tl _ br, 2, x => piShape bl tl x br
  | piShape bl tl tr _, 3, x => piShape bl tl tr x
  | ramp _ e, 0, x => ramp x e
  | ramp s _, 1, x => ramp s x
  | rectangle _ e, 0, x => rectangle x e
  | rectangle s _, 1, x => rectangle s x
  | sigmoid _ s, 0, x => sigmoid x s
  | sigmoid i _, 1, x => sigmoid i x
  | sigmoidDifference _ r f t, 0, x => sigmoidDifference x r f t
  | sigmoidDifference l _ f t, 1, x => sigmoidDifference l x f t
  | sigmoidDifference l r _ t, 2, x => sigmoidDifference l r x t
  | sigmoidDifference l r f _, 3, x => sigmoidDifference l r f x
  | sigmoidProduct _ r f t, 0, x => sigmoidProduct x r f t
  | sigmoidProduct l _ f t, 1, x => sigmoidProduct l x f t
  | sigmoidProduct l r _ t, 2, x => sigmoidProduct l r x t
  | sigmoidProduct l r f _, 3, x => sigmoidProduct l r f x
  | spike _ w, 0, x => spike x w
  | spike c _, 1, x => spike c x
  | sShape _ e, 0, x => sShape x e
  | sShape s _, 1, x => sShape s x
  | trapezoid _ b c d, 0, x => trapezoid x b c d
  | trapezoid a _ c d, 1, x => trapezoid a x c d
  | trapezoid a b _ d, 2, x => trapezoid a b x d
  | trapezoid a b c _, 3, x => trapezoid a b c x
  | triangle _ b c, 0, x => triangle x b c
  | triangle a _ c, 1, x => triangle a x c
  | triangle a b _, 2, x => triangle a b x
  | zShape _ e, 0, x => zShape x e
  | zShape s _, 1, x => zShape s x
  | s, _, _ => s

/-- the assignments of `configure()` from position `i` on: the term afterwards and the exception of
the first conversion that fails -/
def setFrom [ScalarText S] (s : Shape S) : Nat → List Str → Shape S × Option Err
  | _, [] => (s, none)
  | i, v :: vs =>
    match ScalarText.ofText v with
    | some x => setFrom (s.setAt i x) (i + 1) vs
    | none => (s, some .conversion)

end Shape

namespace Term

/-- `className()` of every class -/
def className (t : Term S) : Str :=
  match t.kind with
  | .shape s => s.className
  | .discrete _ => cs! "Discrete"
  | .constant _ => cs! "Constant"
  | .linear _ _ => cs! "Linear"
  | .function _ => cs! "Function"

/-- the suffix that `parameters()` writes for the height -/
def heightText [ScalarText S] (h : S) : List Str := if Op.isEq h (lit 1) then [] else [ScalarText.str h]

/-- `parameters()` of every class: the parametric shapes (lines at `Shape.written`),
Discrete.cpp:77-86, Constant.cpp:35-37, Linear.cpp:81-83, Function.cpp:411-413. -/
def parameters [ScalarText S] (t : Term S) : Str :=
  match t.kind with
  | .shape s => Op.join (s.written.map ScalarText.str) (cs! " ") ++
      (if Op.isEq t.height (lit 1) then [] else cs! " " ++ ScalarText.str t.height)
  | .discrete xy =>
    Op.join ((Discrete.toVector xy).map ScalarText.str ++ heightText t.height) (cs! " ")
  | .constant v => ScalarText.str v
  | .linear c _ => Op.join (c.map ScalarText.str) (cs! " ")
  | .function f => f.formula

/-- `Op::toScalar` of every string, in order; an exception when one is not a number -/
def toScalars [ScalarText S] (vs : List Str) : Except Err (List S) :=
  vs.mapM fun v => match ScalarText.ofText v with
    | some x => .ok x
    | none => .error .conversion

/-- `configure(parameters)` of every class: the term afterwards and the exception.  Parametric
shapes: lines at `Shape.setAt`; Discrete.cpp:88-102; Constant.cpp:39-44, where `values.front()` of an
empty vector is undefined; Linear.cpp:85-94, where the coefficients are cleared before the values are
converted; Function.cpp:415-417. -/
def configure [ScalarText S] (F : ElementFactory S) (ctx : Ctx S) (t : Term S) (text : Str) :
    Term S × Option Err :=
  match t.kind with
  | .shape s =>
    if text.isEmpty then (t, none)
    else
      let values := Op.split text (cs! " ") true
      if values.length < s.required then (t, some .syntaxError)
      else match s.setFrom 0 (values.take s.required) with
      | (s', some e) => ({ t with kind := .shape s' }, some e)
      | (s', none) =>
        match values[s.required]? with
        | none => ({ t with kind := .shape s' }, none)
        | some v =>
          match ScalarText.ofText v with
          | none => ({ t with kind := .shape s' }, some .conversion)
          | some h => ({ t with kind := .shape s', height := h }, none)
  | .discrete _ =>
    if text.isEmpty then (t, none)
    else match toScalars (Op.split text (cs! " ") true) with
    | .error e => (t, some e)
    | .ok values =>
      let height := if values.length % 2 = 0 then lit 1 else values.getLast?.getD (lit 1)
      let rest := if values.length % 2 = 0 then values else values.dropLast
      match Discrete.toPairs rest with
      | .error e => ({ t with height := height }, some e)
      | .ok xy => ({ t with height := height, kind := .discrete xy }, none)
  | .constant _ =>
    if text.isEmpty then (t, none)
    else match Op.split text (cs! " ") true with
    | [] => (t, some .ub)
    | v :: _ =>
      match ScalarText.ofText v with
      | none => (t, some .conversion)
      | some x => ({ t with kind := .constant x }, none)
  | .linear _ e =>
    if text.isEmpty then (t, none)
    else match toScalars (Op.split text (cs! " ") true) with
    | .error err => ({ t with kind := .linear [] e }, some err)
    | .ok c => ({ t with kind := .linear c e }, none)
  | .function f =>
    match f.load F text f.hasEngine ctx with
    | (f, err) => ({ t with kind := .function f }, err)

end Term

namespace Shape
variable [Scalar S]

/-- the default constructors: every parameter is NaN (fuzzylite/term/*.h) -/
def fresh : Shape S → Shape S
  | bell .. => bell nan nan nan
  | binary .. => binary nan nan
  | concave .. => concave nan nan
  | cosine .. => cosine nan nan
  | gaussian .. => gaussian nan nan
  | gaussianProduct .. => gaussianProduct nan nan nan nan
  | piShape .. => piShape nan nan nan nan
  | ramp .. => ramp nan nan
  | rectangle .. => rectangle nan nan
  | sigmoid .. => sigmoid nan nan
  | sigmoidDifference .. => sigmoidDifference nan nan nan nan
  | sigmoidProduct .. => sigmoidProduct nan nan nan nan
  | spike .. => spike nan nan
  | sShape .. => sShape nan nan
  | trapezoid .. => trapezoid nan nan nan nan
  | triangle .. => triangle nan nan nan
  | zShape .. => zShape nan nan

end Shape

namespace Term
variable [Scalar S]

/-- a default-constructed term of the same class (`ConstructionFactory::constructObject`):
fuzzylite/term/Discrete.h:50, Constant.h:39, Linear.h:47, Function.h:263 and the parametric shapes -/
def fresh (t : Term S) : Term S :=
  ⟨[], lit 1, match t.kind with
    | .shape s => .shape s.fresh
    | .discrete _ => .discrete []
    | .constant _ => .constant nan
    | .linear _ _ => .linear [] false
    | .function _ => .function ⟨[], none, false, fun _ => none⟩⟩

end Term
end FL
