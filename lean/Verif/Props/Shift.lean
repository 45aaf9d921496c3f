/-
C93: engines have no preferred origin.
-/
import Verif.Props.Clone
import Verif.Props.Aggregated
import Verif.Props.RoundedEngine
import Verif.Lemmas.Ext

namespace FL
open Scalar Ext

variable {S : Type} [Scalar S]

section
variable [Tol ℝ]

/-! ### numbers -/

namespace Ext

theorem shift_sub_shift (x y : Ext ℝ) (c : ℝ) : (x + fin c) - (y + fin c) = x - y := by
  cases x <;> cases y <;> simp

theorem shift_lt (x y : Ext ℝ) (c : ℝ) : Scalar.lt (x + fin c) (y + fin c) = Scalar.lt x y := by
  cases x <;> cases y <;> simp

theorem shift_eq (x y : Ext ℝ) (c : ℝ) : Scalar.eq (x + fin c) (y + fin c) = Scalar.eq x y := by
  cases x <;> cases y <;> simp

theorem shift_gt (x y : Ext ℝ) (c : ℝ) : Scalar.gt (x + fin c) (y + fin c) = Scalar.gt x y := shift_lt y x c

theorem shift_isNaN (x : Ext ℝ) (c : ℝ) : Op.isNaN (x + fin c) = Op.isNaN x := by cases x <;> simp

theorem shift_isFinite (x : Ext ℝ) (c : ℝ) : Op.isFinite (x + fin c) = Op.isFinite x := by cases x <;> simp

theorem shift_eq_inf (x : Ext ℝ) (c : ℝ) : Scalar.eq (x + fin c) inf = Scalar.eq x inf := by cases x <;> simp

theorem shift_eq_ninf (x : Ext ℝ) (c : ℝ) : Scalar.eq (x + fin c) Scalar.ninf = Scalar.eq x Scalar.ninf := by
  cases x <;> simp

theorem shift_isEq (x y : Ext ℝ) (c : ℝ) : Op.isEq (x + fin c) (y + fin c) = Op.isEq x y := by
  simp only [Op.isEq, Op.isEqT, shift_eq, shift_sub_shift, shift_isNaN]

theorem shift_isLt (x y : Ext ℝ) (c : ℝ) : Op.isLt (x + fin c) (y + fin c) = Op.isLt x y := by
  simp only [Op.isLt, Op.isLtT, Op.isEqT, shift_eq, shift_sub_shift, shift_isNaN, shift_lt]

theorem shift_isLE (x y : Ext ℝ) (c : ℝ) : Op.isLE (x + fin c) (y + fin c) = Op.isLE x y := by
  simp only [Op.isLE, Op.isLET, Op.isEqT, shift_eq, shift_sub_shift, shift_isNaN, shift_lt]

theorem shift_isGt (x y : Ext ℝ) (c : ℝ) : Op.isGt (x + fin c) (y + fin c) = Op.isGt x y := by
  simp only [Op.isGt, Op.isGtT, Op.isEqT, shift_eq, shift_sub_shift, shift_isNaN, shift_lt, shift_gt]

theorem shift_isGE (x y : Ext ℝ) (c : ℝ) : Op.isGE (x + fin c) (y + fin c) = Op.isGE x y := by
  simp only [Op.isGE, Op.isGET, Op.isEqT, shift_eq, shift_sub_shift, shift_isNaN, shift_lt, shift_gt]

theorem shift_add (x y : Ext ℝ) (c : ℝ) : x + fin c + y = x + y + fin c := by
  cases x <;> cases y <;> first | rfl | (simp; try ring)

theorem add_shift (x y : Ext ℝ) (c : ℝ) : x + (y + fin c) = x + y + fin c := by
  cases x <;> cases y <;> first | rfl | (simp; try ring)

theorem shift_sub (x y : Ext ℝ) (c : ℝ) : x + fin c - y = x - y + fin c := by
  cases x <;> cases y <;> first | rfl | (simp; try ring)

theorem half_shift (x : Ext ℝ) (c : ℝ) : lit (1/2) * (x + fin c + fin c) = lit (1/2) * x + fin c := by
  cases x with
  | fin a => simp [lit]; ring
  | nan => rfl
  | pinf => simp [lit]; rw [fin_mul_pinf _ (by norm_num)]; rfl
  | ninf => simp [lit]; rw [fin_mul_ninf _ (by norm_num)]; rfl

theorem half_sum_shift (x y : Ext ℝ) (c : ℝ) :
    lit (1/2) * ((x + fin c) + (y + fin c)) = lit (1/2) * (x + y) + fin c := by
  rw [add_shift, shift_add, half_shift]

theorem two_shift (x : Ext ℝ) (c : ℝ) : lit 2 * (x + fin c) = lit 2 * x + fin c + fin c := by
  cases x with
  | fin a => simp [lit]; ring
  | nan => rfl
  | pinf => simp [lit]; rw [fin_mul_pinf _ (by norm_num)]; rfl
  | ninf => simp [lit]; rw [fin_mul_ninf _ (by norm_num)]; rfl

theorem shift_bound (x y z : Ext ℝ) (c : ℝ) :
    Op.bound (x + fin c) (y + fin c) (z + fin c) = Op.bound x y z + fin c := by
  simp only [Op.bound, shift_isGt, shift_isLt, shift_gt, shift_lt]
  split
  · rfl
  · split <;> rfl

end Ext

/-! ### terms -/

/-- the term moved by `c` along the axis: locations are moved, widths and slopes are kept -/
def Shape.shift (c : S) : Shape S → Shape S
  | bell m w s => bell (m + c) w s
  | binary s d => binary (s + c) (d + c)
  | concave i e => concave (i + c) (e + c)
  | cosine m w => cosine (m + c) w
  | gaussian m s => gaussian (m + c) s
  | gaussianProduct a s b t => gaussianProduct (a + c) s (b + c) t
  | piShape a b d e => piShape (a + c) (b + c) (d + c) (e + c)
  | ramp s e => ramp (s + c) (e + c)
  | rectangle s e => rectangle (s + c) (e + c)
  | sigmoid i s => sigmoid (i + c) s
  | sigmoidDifference l r f t => sigmoidDifference (l + c) r f (t + c)
  | sigmoidProduct l r f t => sigmoidProduct (l + c) r f (t + c)
  | spike m w => spike (m + c) w
  | sShape s e => sShape (s + c) (e + c)
  | trapezoid a b d e => trapezoid (a + c) (b + c) (d + c) (e + c)
  | triangle a b d => triangle (a + c) (b + c) (d + c)
  | zShape s e => zShape (s + c) (e + c)

theorem two_shift_sub (e i x : Ext ℝ) (c : ℝ) :
    lit 2 * (e + fin c) - (i + fin c) - (x + fin c) = lit 2 * e - i - x := by
  rw [two_shift, shift_sub_shift, shift_sub, shift_sub_shift]

theorem sub_two_shift (e i x : Ext ℝ) (c : ℝ) :
    (i + fin c) - lit 2 * (e + fin c) + (x + fin c) = i - lit 2 * e + x := by
  rw [two_shift]
  generalize lit 2 * e = y
  cases i <;> cases y <;> cases x <;> first | rfl | (simp; try ring)

/-- C93: a moved term has at a moved place the degree it had -/
theorem Shape.membership_shift (s : Shape (Ext ℝ)) (h x : Ext ℝ) (c : ℝ) :
    (s.shift (fin c)).membership h (x + fin c) = s.membership h x := by
  cases s <;>
    simp only [shift, membership, shift_isNaN, shift_sub_shift, shift_gt, shift_lt, shift_isGE, shift_isLE, shift_isLt,
      shift_isGt, shift_isEq, two_shift_sub, sub_two_shift, half_sum_shift, shift_eq_inf, shift_eq_ninf]
  simp only [shift_sub, shift_add, shift_isLt, shift_isGt]

theorem Shape.isMonotonic_shift (s : Shape (Ext ℝ)) (c : ℝ) : (s.shift (fin c)).isMonotonic = s.isMonotonic := by
  cases s <;> rfl

/-- C93: a moved term attains a degree at the moved place -/
theorem Shape.tsukamoto_shift (s : Shape (Ext ℝ)) (h y : Ext ℝ) (c : ℝ) :
    (s.shift (fin c)).tsukamoto h y = (s.tsukamoto h y).map (· + fin c) := by
  cases s <;>
    simp only [shift, tsukamoto, shift_sub_shift, Option.map_some, Option.map_none]
  case concave i e => rw [two_shift, add_shift, add_shift, shift_sub_shift, shift_sub]
  case ramp s e => rw [shift_add]
  case sigmoid i s => rw [shift_add]
  all_goals
    simp only [shift_sub, shift_add]
    split <;> rfl

/-- the pairs moved by `c` -/
def Discrete.shift (c : S) (xy : List (S × S)) : List (S × S) :=
  xy.map fun p => (p.1 + c, p.2)

theorem dropWhile_map' {α β : Type} (f : α → β) (p : β → Bool) (q : α → Bool) (h : ∀ a, p (f a) = q a) (l : List α) :
    (l.map f).dropWhile p = (l.dropWhile q).map f := by
  induction l with
  | nil => rfl
  | cons a l ih =>
    simp only [List.map_cons, List.dropWhile_cons, h]
    split
    · exact ih
    · rfl

theorem takeWhile_map' {α β : Type} (f : α → β) (p : β → Bool) (q : α → Bool) (h : ∀ a, p (f a) = q a) (l : List α) :
    (l.map f).takeWhile p = (l.takeWhile q).map f := by
  induction l with
  | nil => rfl
  | cons a l ih =>
    simp only [List.map_cons, List.takeWhile_cons, h]
    split
    · simp only [ih, List.map_cons]
    · rfl

theorem Discrete.membership_shift (xy : List (Ext ℝ × Ext ℝ)) (h x : Ext ℝ) (c : ℝ) :
    Discrete.membership h (Discrete.shift (fin c) xy) (x + fin c) = Discrete.membership h xy x := by
  have hd1 := dropWhile_map' (fun p : Ext ℝ × Ext ℝ => (p.1 + fin c, p.2)) (fun p => Scalar.lt p.1 (x + fin c))
    (fun p => Scalar.lt p.1 x) (fun a => shift_lt a.1 x c) xy
  have ht1 := takeWhile_map' (fun p : Ext ℝ × Ext ℝ => (p.1 + fin c, p.2)) (fun p => Scalar.lt p.1 (x + fin c))
    (fun p => Scalar.lt p.1 x) (fun a => shift_lt a.1 x c) xy
  have hd2 := dropWhile_map' (fun p : Ext ℝ × Ext ℝ => (p.1 + fin c, p.2)) (fun p => !Scalar.lt (x + fin c) p.1)
    (fun p => !Scalar.lt x p.1) (fun a => by rw [shift_lt]) xy
  have p1 : partitioned (fun p : Ext ℝ × Ext ℝ => Scalar.lt p.1 (x + fin c)) (Discrete.shift (fin c) xy) =
      partitioned (fun p : Ext ℝ × Ext ℝ => Scalar.lt p.1 x) xy := by
    simp only [partitioned, shift, hd1, List.all_map, Function.comp_def, shift_lt]
  have p2 : partitioned (fun p : Ext ℝ × Ext ℝ => !Scalar.lt (x + fin c) p.1) (Discrete.shift (fin c) xy) =
      partitioned (fun p : Ext ℝ × Ext ℝ => !Scalar.lt x p.1) xy := by
    simp only [partitioned, shift, hd2, List.all_map, Function.comp_def, shift_lt]
  unfold Discrete.membership
  simp only [p1, p2]
  simp only [shift, List.head?_map, List.getLast?_map, hd1, ht1, hd2, shift_isNaN]
  split
  · rfl
  · cases xy.head? with
    | none => rfl
    | some first =>
      cases xy.getLast? with
      | none => rfl
      | some last =>
        simp only [Option.map_some, shift_isLE, shift_isGE]
        split
        · rfl
        · split
          · rfl
          · split
            · rfl
            · cases (xy.dropWhile fun p => Scalar.lt p.1 x).head? with
              | none => rfl
              | some lower =>
                simp only [Option.map_some, shift_isEq]
                split
                · rfl
                · split
                  · rfl
                  · cases (xy.takeWhile fun p => Scalar.lt p.1 x).getLast? with
                    | none => rfl
                    | some lower =>
                      cases (xy.dropWhile fun p => !Scalar.lt x p.1).head? with
                      | none => rfl
                      | some upper => simp only [Option.map_some, Op.scale, shift_sub_shift]

/-- the term moved by `c`.  Constants are moved too; linear terms and formulas, which have no place, are
kept. -/
def Term.shift (c : S) (t : Term S) : Term S :=
  { t with kind := match t.kind with
    | .shape s => .shape (s.shift c)
    | .discrete xy => .discrete (Discrete.shift c xy)
    | .constant v => .constant (v + c)
    | k => k }

/-- a term that stands somewhere on the axis -/
def Term.Placed (t : Term (Ext ℝ)) : Prop := (∃ s, t.kind = .shape s) ∨ ∃ xy, t.kind = .discrete xy

/-- a term that is a single number -/
def Term.Singleton (t : Term (Ext ℝ)) : Prop := ∃ v, t.kind = .constant v

theorem Term.membership_shift (ctx ctx' : Ctx (Ext ℝ)) (t : Term (Ext ℝ)) (h : t.Placed) (x : Ext ℝ) (c : ℝ) :
    (t.shift (fin c)).membership ctx' (x + fin c) = t.membership ctx x := by
  obtain ⟨n, ht, k⟩ := t
  rcases h with ⟨s, hs⟩ | ⟨xy, hs⟩
  · obtain rfl : k = .shape s := hs
    exact congrArg Except.ok (s.membership_shift ht x c)
  · obtain rfl : k = .discrete xy := hs
    exact Discrete.membership_shift xy ht x c

theorem Term.constant_shift (ctx ctx' : Ctx (Ext ℝ)) (t : Term (Ext ℝ)) (h : t.Singleton) (x : Ext ℝ) (c : ℝ) :
    (t.shift (fin c)).membership ctx' x = (t.membership ctx x).map (· + fin c) := by
  obtain ⟨n, ht, k⟩ := t
  obtain ⟨v, hs⟩ := h
  obtain rfl : k = .constant v := hs
  rfl

theorem Term.tsukamoto_shift (t : Term (Ext ℝ)) (y : Ext ℝ) (c : ℝ) :
    (t.shift (fin c)).tsukamoto y = (t.tsukamoto y).map (· + fin c) := by
  obtain ⟨n, ht, k⟩ := t
  cases k with
  | shape s =>
    simp only [tsukamoto, shift, Shape.tsukamoto_shift]
    cases s.tsukamoto ht y <;> rfl
  | _ => rfl

theorem Term.inferTerm_shift (t : Term (Ext ℝ)) (c : ℝ) : Weighted.inferTerm (t.shift (fin c)) = Weighted.inferTerm t := by
  obtain ⟨n, ht, k⟩ := t
  cases k with
  | shape s =>
    simp only [Weighted.inferTerm, isMonotonic, shift, Shape.isMonotonic_shift]
    rfl
  | _ => rfl

/-! ### fuzzy sets -/

def Activated.shift (c : S) (a : Activated S) : Activated S := { a with term := a.term.shift c }

def Aggregated.shift (c : S) (g : Aggregated S) : Aggregated S :=
  { g with
    minimum := g.minimum + c
    maximum := g.maximum + c
    terms := g.terms.map (Activated.shift c) }

theorem Activated.membership_shift (ctx ctx' : Ctx (Ext ℝ)) (a : Activated (Ext ℝ)) (h : a.term.Placed) (x : Ext ℝ) (c : ℝ) :
    (a.shift (fin c)).membership ctx' (x + fin c) = a.membership ctx x := by
  simp only [membership, shift, shift_isNaN, Term.membership_shift ctx ctx' a.term h]

theorem Aggregated.membership_shift (ctx ctx' : Ctx (Ext ℝ)) (g : Aggregated (Ext ℝ)) (h : ∀ a ∈ g.terms, a.term.Placed)
    (x : Ext ℝ) (c : ℝ) : (g.shift (fin c)).membership ctx' (x + fin c) = g.membership ctx x := by
  obtain ⟨n, mn, mx, agg, ts⟩ := g
  simp only [membership, shift, shift_isNaN, List.isEmpty_map]
  split
  · rfl
  · cases agg with
    | none => rfl
    | some agg =>
      simp only [List.foldlM_map]
      replace h : ∀ a ∈ ts, a.term.Placed := h
      generalize (lit 0 : Ext ℝ) = z
      induction ts generalizing z with
      | nil => rfl
      | cons a ts ih =>
        simp only [List.foldlM_cons, Activated.membership_shift ctx ctx' a (h a List.mem_cons_self)]
        cases a.membership ctx x with
        | error e => rfl
        | ok y =>
          show (agg.compute z y >>= _) = (agg.compute z y >>= _)
          cases agg.compute z y with
          | error e => rfl
          | ok w => exact ih (fun b hb => h b (List.mem_cons_of_mem _ hb)) w

/-! ### defuzzification -/

namespace Integral

/-- the sums of weighted numbers, before and after moving the numbers -/
def Moved (c : ℝ) (s s' : Ext ℝ × Ext ℝ) : Prop :=
  s'.2 = s.2 ∧ ((∃ b, s.2 = fin b ∧ s'.1 = s.1 + fin (b * c)) ∨
    (Op.isFinite s.2 = false ∧ Op.isFinite s.1 = false ∧ Op.isFinite s'.1 = false))

theorem infinite_add (x y : Ext ℝ) (h : Op.isFinite y = false) : Op.isFinite (x + y) = false := by
  cases x <;> cases y <;> first | rfl | simp_all

theorem infinite_add' (x y : Ext ℝ) (h : Op.isFinite x = false) : Op.isFinite (x + y) = false := by
  cases x <;> cases y <;> first | rfl | simp_all

theorem infinite_signInf (a : ℝ) : Op.isFinite (signInf a) = false := by
  unfold signInf
  split
  · simp
  · split <;> simp

theorem infinite_mul (w z : Ext ℝ) (h : Op.isFinite w = false) : Op.isFinite (w * z) = false := by
  cases w with
  | fin a => simp at h
  | nan => simp
  | pinf =>
    cases z with
    | fin a => exact infinite_signInf a
    | nan => simp
    | pinf => show Op.isFinite (pinf : Ext ℝ) = false; simp
    | ninf => show Op.isFinite (Ext.ninf : Ext ℝ) = false; simp
  | ninf =>
    cases z with
    | fin a => exact infinite_signInf (-a)
    | nan => simp
    | pinf => show Op.isFinite (Ext.ninf : Ext ℝ) = false; simp
    | ninf => show Op.isFinite (pinf : Ext ℝ) = false; simp

theorem signInf_add (a b : ℝ) : signInf a + fin b = (signInf a : Ext ℝ) := by
  unfold signInf
  split
  · rfl
  · split <;> rfl

theorem fin_mul_shift (w : ℝ) (z : Ext ℝ) (c : ℝ) : fin w * (z + fin c) = fin w * z + fin (w * c) := by
  cases z with
  | fin a => simp; ring
  | nan => rfl
  | pinf => exact (signInf_add w (w * c)).symm
  | ninf => exact (signInf_add (-w) (w * c)).symm

theorem Moved.step {c : ℝ} {s s' : Ext ℝ × Ext ℝ} (h : Moved c s s') (w z : Ext ℝ) :
    Moved c (s.1 + w * z, s.2 + w) (s'.1 + w * (z + fin c), s'.2 + w) := by
  obtain ⟨h1, h2⟩ := h
  refine ⟨by simp only [h1], ?_⟩
  rcases h2 with ⟨b, e1, e2⟩ | ⟨e1, e2, e3⟩
  · cases w with
    | fin a =>
      refine Or.inl ⟨b + a, by simp [e1], ?_⟩
      simp only [e2, fin_mul_shift]
      generalize fin a * z = y
      cases s.1 <;> cases y <;> first | rfl | (simp; ring)
    | _ =>
      refine Or.inr ⟨infinite_add _ _ (by simp), infinite_add _ _ (infinite_mul _ _ (by simp)), infinite_add _ _ (infinite_mul _ _ (by simp))⟩
  · exact Or.inr ⟨infinite_add' _ _ e1, infinite_add' _ _ e2, infinite_add' _ _ e3⟩

theorem Moved.start (c : ℝ) : Moved c (lit 0, lit 0) (lit 0, lit 0) :=
  ⟨rfl, Or.inl ⟨0, by simp [lit], by simp [lit]⟩⟩

theorem Moved.ratio {c : ℝ} {s s' : Ext ℝ × Ext ℝ} (h : Moved c s s') : s'.1 / s'.2 = s.1 / s.2 + fin c := by
  obtain ⟨x, y⟩ := s
  obtain ⟨x', y'⟩ := s'
  obtain ⟨h1, h2⟩ := h
  obtain rfl : y' = y := h1
  rcases h2 with ⟨b, e1, e2⟩ | ⟨e1, e2, e3⟩
  · obtain rfl : y' = fin b := e1
    obtain rfl : x' = x + fin (b * c) := e2
    cases x with
    | nan => rfl
    | pinf =>
      show (if b < 0 then _ else _) = (if b < 0 then _ else _) + _
      split <;> rfl
    | ninf =>
      show (if b < 0 then _ else _) = (if b < 0 then _ else _) + _
      split <;> rfl
    | fin a =>
      by_cases hb : b = 0
      · subst hb
        simp only [add_fin, zero_mul, add_zero, div_fin_zero, signInf_add]
      · simp only [add_fin, div_fin _ _ hb]
        congr 1
        field_simp
  · cases y' <;> cases x <;> cases x' <;> first | rfl | simp_all

/-- C93: the centroid of moved samples is moved with them, also when it is infinite or not a number -/
theorem centroid_shift (l : List (Ext ℝ × Ext ℝ)) (c : ℝ) :
    centroid (l.map fun p => (p.1 + fin c, p.2)) = centroid l + fin c := by
  unfold centroid
  rw [List.foldl_map]
  apply Moved.ratio
  suffices ∀ s s', Moved c s s' → Moved c (l.foldl (fun s p => (s.1 + p.2 * p.1, s.2 + p.2)) s)
      (l.foldl (fun s p => (s.1 + p.2 * (p.1 + fin c), s.2 + p.2)) s') from this _ _ (Moved.start c)
  induction l with
  | nil => exact fun s s' h => h
  | cons p l ih => exact fun s s' h => ih _ _ (h.step p.2 p.1)

theorem sum_shift (l : List (Ext ℝ)) (c : ℝ) : Op.sum (l.map (· + fin c)) = Op.sum l + fin (l.length * c) := by
  unfold Op.sum
  rw [List.foldl_map]
  suffices ∀ s : Ext ℝ, ∀ n : ℝ, l.foldl (fun s x => s + (x + fin c)) (s + fin n) = l.foldl (fun s x => s + x) s + fin (n + l.length * c) by
    have := this (lit 0) 0
    simpa [lit] using this
  induction l with
  | nil => intro s n; simp
  | cons x l ih =>
    intro s n
    simp only [List.foldl_cons]
    have : s + fin n + (x + fin c) = s + x + fin (n + c) := by
      cases s <;> cases x <;> first | rfl | (simp; try ring)
    rw [this, ih]
    congr 2
    push_cast [List.length_cons]
    ring

theorem mean_shift (l : List (Ext ℝ)) (c : ℝ) : Op.mean (l.map (· + fin c)) = Op.mean l + fin c := by
  unfold Op.mean
  rw [sum_shift, List.length_map]
  have : Moved c (Op.sum l, lit (l.length : ℚ)) (Op.sum l + fin (l.length * c), lit (l.length : ℚ)) :=
    ⟨rfl, Or.inl ⟨l.length, by simp [lit], rfl⟩⟩
  exact this.ratio

theorem samples_shift (mu mu' : Ext ℝ → Except Err (Ext ℝ)) (c : ℝ) (h : ∀ x, mu' (x + fin c) = mu x) (mn mx : Ext ℝ) (r : Int) :
    samples mu' (mn + fin c) (mx + fin c) r = (samples mu mn mx r).map fun l => l.map fun p => (p.1 + fin c, p.2) := by
  simp only [samples, shift_sub_shift, shift_add, h]
  generalize (mx - mn) / lit (r : ℚ) = dx
  generalize List.range r.toNat = is
  induction is with
  | nil => rfl
  | cons i is ih =>
    simp only [List.mapM_cons, ih]
    cases mu (mn + (lit (i : ℚ) + lit (1/2)) * dx) with
    | error e => rfl
    | ok y =>
      cases List.mapM (fun (i : Nat) => (do
        let y ← mu (mn + (lit (i : ℚ) + lit (1/2)) * dx)
        .ok (mn + (lit (i : ℚ) + lit (1/2)) * dx, y) : Except Err (Ext ℝ × Ext ℝ))) is with
      | error e => rfl
      | ok l => rfl

theorem largest_shift (l : List (Ext ℝ × Ext ℝ)) (c : ℝ) :
    largest (l.map fun p => (p.1 + fin c, p.2)) = largest l + fin c := by
  unfold largest
  rw [List.foldl_map]
  suffices ∀ s : Ext ℝ × Ext ℝ, (l.foldl (fun s p => if Scalar.ge p.2 s.2 then (p.1 + fin c, p.2) else s) (s.1 + fin c, s.2)) =
      ((l.foldl (fun s p => if Scalar.ge p.2 s.2 then p else s) s).1 + fin c,
       (l.foldl (fun s p => if Scalar.ge p.2 s.2 then p else s) s).2) by
    exact congrArg Prod.fst (this (Scalar.nan, Scalar.ninf))
  intro s
  induction l generalizing s with
  | nil => rfl
  | cons p l ih =>
    simp only [List.foldl_cons]
    split
    · exact ih p
    · exact ih s

theorem smallest_shift (l : List (Ext ℝ × Ext ℝ)) (c : ℝ) :
    smallest (l.map fun p => (p.1 + fin c, p.2)) = smallest l + fin c := by
  unfold smallest
  rw [List.foldl_map]
  suffices ∀ s : Ext ℝ × Ext ℝ, (l.foldl (fun s p => if Scalar.gt p.2 s.2 then (p.1 + fin c, p.2) else s) (s.1 + fin c, s.2)) =
      ((l.foldl (fun s p => if Scalar.gt p.2 s.2 then p else s) s).1 + fin c,
       (l.foldl (fun s p => if Scalar.gt p.2 s.2 then p else s) s).2) by
    exact congrArg Prod.fst (this (Scalar.nan, Scalar.ninf))
  intro s
  induction l generalizing s with
  | nil => rfl
  | cons p l ih =>
    simp only [List.foldl_cons]
    split
    · exact ih p
    · exact ih s

theorem maxima_shift (l : List (Ext ℝ × Ext ℝ)) (c : ℝ) :
    maxima (l.map fun p => (p.1 + fin c, p.2)) = (maxima l).map (· + fin c) := by
  unfold maxima
  rw [List.foldl_map]
  suffices ∀ s : List (Ext ℝ) × Ext ℝ, (l.foldl (fun s p => if Scalar.gt p.2 s.2 then ([p.1 + fin c], p.2)
      else if Scalar.eq p.2 s.2 then (s.1 ++ [p.1 + fin c], s.2) else s) (s.1.map (· + fin c), s.2)) =
      ((l.foldl (fun s p => if Scalar.gt p.2 s.2 then ([p.1], p.2)
        else if Scalar.eq p.2 s.2 then (s.1 ++ [p.1], s.2) else s) s).1.map (· + fin c),
       (l.foldl (fun s p => if Scalar.gt p.2 s.2 then ([p.1], p.2)
        else if Scalar.eq p.2 s.2 then (s.1 ++ [p.1], s.2) else s) s).2) by
    exact congrArg Prod.fst (this ([], Scalar.ninf))
  intro s
  induction l generalizing s with
  | nil => rfl
  | cons p l ih =>
    simp only [List.foldl_cons]
    split
    · exact ih ([p.1], p.2)
    · split
      · have := ih (s.1 ++ [p.1], s.2)
        simp only [List.map_append, List.map_cons, List.map_nil] at this
        exact this
      · exact ih s

theorem partialSums_shift (l : List (Ext ℝ × Ext ℝ)) (s : Ext ℝ) (c : ℝ) :
    partialSums s (l.map fun p => (p.1 + fin c, p.2)) = partialSums s l := by
  induction l generalizing s with
  | nil => rfl
  | cons p l ih => simp only [List.map_cons, partialSums, ih]

theorem bisector_shift (l : List (Ext ℝ × Ext ℝ)) (c : ℝ) :
    bisector (l.map fun p => (p.1 + fin c, p.2)) = bisector l + fin c := by
  simp only [bisector, partialSums_shift]
  rw [← mean_shift]
  congr 1
  rw [List.map_filterMap, List.map_map]
  have : (l.map (Prod.fst ∘ fun p : Ext ℝ × Ext ℝ => (p.1 + fin c, p.2))) = (l.map Prod.fst).map (· + fin c) := by
    rw [List.map_map]; rfl
  rw [this, List.zip_map_left, List.filterMap_map]
  congr 1
  funext p
  simp only [Function.comp_apply, Prod.map_fst, Prod.map_snd, id]
  split <;> rfl

/-- C93: integral defuzzifiers of a moved fuzzy set over the moved range yield the moved number -/
theorem defuzzify_shift (k : IntegralKind) (r : Int) (mu mu' : Ext ℝ → Except Err (Ext ℝ)) (c : ℝ)
    (h : ∀ x, mu' (x + fin c) = mu x) (mn mx : Ext ℝ) :
    defuzzify k r mu' (mn + fin c) (mx + fin c) = (defuzzify k r mu mn mx).map (· + fin c) := by
  unfold defuzzify
  rw [shift_add, add_shift, shift_isFinite, shift_isFinite, samples_shift mu mu' c h]
  split
  · rfl
  · split
    · rfl
    · cases samples mu mn mx r with
      | error e => rfl
      | ok l =>
        cases k
        · exact congrArg Except.ok (bisector_shift l c)
        · exact congrArg Except.ok (centroid_shift l c)
        · exact congrArg Except.ok (largest_shift l c)
        · exact congrArg Except.ok (smallest_shift l c)
        · show Except.ok (Op.mean _) = Except.ok (Op.mean _ + _)
          rw [maxima_shift, mean_shift]

end Integral

/-- the groups moved by `c` -/
def Aggregated.Groups.shift (c : S) (G : Aggregated.Groups S) : Aggregated.Groups S :=
  G.map fun q => (q.1, q.2.shift c)

theorem Aggregated.find_shift (G : Aggregated.Groups (Ext ℝ)) (n : Str) (c : ℝ) :
    ((Groups.shift (fin c) G).find? fun p => p.1 == n) = (G.find? fun p => p.1 == n).map fun q => (q.1, q.2.shift (fin c)) := by
  simp only [Groups.shift, List.find?_map]
  rfl

theorem Aggregated.groupStep_shift (agg : SNorm (Ext ℝ)) (G : Aggregated.Groups (Ext ℝ)) (a : Activated (Ext ℝ)) (c : ℝ) :
    groupStep agg (Groups.shift (fin c) G) (a.shift (fin c)) = (groupStep agg G a).map (Groups.shift (fin c)) := by
  unfold groupStep
  have hn : (a.shift (fin c)).term.name = a.term.name := rfl
  have hd : (a.shift (fin c)).degree = a.degree := rfl
  rw [hn, hd, find_shift]
  cases G.find? fun p => p.1 == a.term.name with
  | none =>
    simp only [Option.map_none, Except.map, Groups.shift, List.map_append, List.map_cons, List.map_nil]
  | some p =>
    simp only [Option.map_some]
    have hd' : (p.2.shift (fin c)).degree = p.2.degree := rfl
    rw [hd']
    cases agg.compute p.2.degree a.degree with
    | error e => rfl
    | ok d =>
      show Except.ok _ = Except.ok _
      congr 1
      simp only [Groups.shift, List.map_map]
      apply List.map_congr_left
      intro q _
      simp only [Function.comp_apply]
      split <;> rfl

theorem Aggregated.ungroup_shift (c : ℝ) (l acc : List (Activated (Ext ℝ))) (G : Aggregated.Groups (Ext ℝ)) :
    ((l.map (Activated.shift (fin c))).foldl ungroupStep (acc.map (Activated.shift (fin c)), Groups.shift (fin c) G)).1 =
      ((l.foldl ungroupStep (acc, G)).1).map (Activated.shift (fin c)) := by
  induction l generalizing acc G with
  | nil => rfl
  | cons a l ih =>
    simp only [List.map_cons, List.foldl_cons]
    have : ungroupStep (acc.map (Activated.shift (fin c)), Groups.shift (fin c) G) (a.shift (fin c)) =
        ((ungroupStep (acc, G) a).1.map (Activated.shift (fin c)), Groups.shift (fin c) (ungroupStep (acc, G) a).2) := by
      unfold ungroupStep
      have hn : (a.shift (fin c)).term.name = a.term.name := rfl
      simp only [hn, find_shift]
      cases G.find? fun p => p.1 == a.term.name with
      | none => rfl
      | some p =>
        simp only [Option.map_some, List.map_append, List.map_cons, List.map_nil]
        congr 1
        simp only [Groups.shift, List.filter_map]
        rfl
    rw [this, ih]

theorem Aggregated.grouped_shift (g : Aggregated (Ext ℝ)) (c : ℝ) : (g.shift (fin c)).grouped = g.grouped.map (Aggregated.shift (fin c)) := by
  unfold grouped
  have ha : (g.shift (fin c)).aggregation = g.aggregation := rfl
  have ht : (g.shift (fin c)).terms = g.terms.map (Activated.shift (fin c)) := rfl
  have hg : ∀ (agg : SNorm (Ext ℝ)) (l : List (Activated (Ext ℝ))) (G : Groups (Ext ℝ)),
      (l.map (Activated.shift (fin c))).foldlM (groupStep agg) (Groups.shift (fin c) G) =
        (l.foldlM (groupStep agg) G).map (Groups.shift (fin c)) := by
    intro agg l
    induction l with
    | nil => exact fun G => rfl
    | cons a l ih =>
      intro G
      simp only [List.map_cons, List.foldlM_cons, groupStep_shift]
      cases groupStep agg G a with
      | error e => rfl
      | ok H => exact ih H
  have := hg (g.aggregation.getD (.builtin .unboundedSum)) g.terms []
  rw [ha, ht]
  simp only [show Groups.shift (fin c) [] = ([] : Groups (Ext ℝ)) from rfl] at this
  simp only [this]
  cases g.terms.foldlM (groupStep (g.aggregation.getD (.builtin .unboundedSum))) [] with
  | error e => rfl
  | ok G =>
    show Except.ok _ = Except.ok _
    congr 1
    have := ungroup_shift c g.terms [] G
    simp only [List.map_nil] at this
    simp only [this]
    rfl

theorem Aggregated.grouped_mem (g g' : Aggregated (Ext ℝ)) (h : g.grouped = .ok g') (a : Activated (Ext ℝ)) (ha : a ∈ g'.terms) :
    ∃ b ∈ g.terms, b.term = a.term := by
  obtain ⟨first, rest, h1, h2, -⟩ := (grouped_spec g g' h).2.2.2 a ha
  refine ⟨first, ?_, by rw [h2]⟩
  have : first ∈ g.terms.filter (fun b => b.term.name == a.term.name) := by rw [h1]; exact List.mem_cons_self
  exact (List.mem_filter.1 this).1

theorem Weighted.inferTypes_shift (l : List (Activated (Ext ℝ))) (c : ℝ) :
    inferTypes ((l.map (Activated.shift (fin c))).map Activated.term) = inferTypes (l.map Activated.term) := by
  unfold inferTypes
  simp only [List.map_map]
  have : (inferTerm ∘ Activated.term ∘ Activated.shift (fin c)) = (inferTerm ∘ Activated.term (S := Ext ℝ)) :=
    funext fun a => Term.inferTerm_shift a.term c
  rw [this]

theorem Weighted.inferTypes_all (l : List (Term (Ext ℝ))) (t : WeightedType) (h : inferTypes l = .ok t) :
    ∀ a ∈ l, inferTerm a = t := by
  unfold inferTypes at h
  intro a ha
  have hm : inferTerm a ∈ (l.map inferTerm).dedup := List.mem_dedup.2 (List.mem_map_of_mem ha)
  revert hm
  split at h
  · next e => rw [e]; exact fun hm => absurd hm (by simp)
  · next e =>
    rw [e]
    intro hm
    cases h
    exact List.mem_singleton.1 hm
  · cases h

/-- the sums of moved numbers -/
theorem Weighted.sums_shift (c : ℝ) (z z' : Activated (Ext ℝ) → Except Err (Ext ℝ)) (l : List (Activated (Ext ℝ)))
    (h : ∀ a ∈ l, z' (a.shift (fin c)) = (z a).map (· + fin c)) :
    (∃ e, sums z l = .error e ∧ sums z' (l.map (Activated.shift (fin c))) = .error e) ∨
    (∃ s s', sums z l = .ok s ∧ sums z' (l.map (Activated.shift (fin c))) = .ok s' ∧ Integral.Moved c s s') := by
  suffices ∀ s s' : Ext ℝ × Ext ℝ, Integral.Moved c s s' →
      (∃ e, l.foldlM (fun s a => do let z ← z a; .ok (s.1 + a.degree * z, s.2 + a.degree)) s = .error e ∧
        (l.map (Activated.shift (fin c))).foldlM (fun s a => do let z ← z' a; .ok (s.1 + a.degree * z, s.2 + a.degree)) s' = .error e) ∨
      (∃ q q', l.foldlM (fun s a => do let z ← z a; .ok (s.1 + a.degree * z, s.2 + a.degree)) s = .ok q ∧
        (l.map (Activated.shift (fin c))).foldlM (fun s a => do let z ← z' a; .ok (s.1 + a.degree * z, s.2 + a.degree)) s' = .ok q' ∧
        Integral.Moved c q q') from this _ _ (Integral.Moved.start c)
  induction l with
  | nil => exact fun s s' hs => Or.inr ⟨s, s', rfl, rfl, hs⟩
  | cons a l ih =>
    intro s s' hs
    simp only [List.map_cons, List.foldlM_cons, h a List.mem_cons_self]
    cases z a with
    | error e => exact Or.inl ⟨e, rfl, rfl⟩
    | ok y => exact ih (fun b hb => h b (List.mem_cons_of_mem _ hb)) _ _ (hs.step a.degree y)

/-- the terms with which the defuzzifier yields a place: terms that stand somewhere for integral
defuzzifiers; constants, or terms with a place for each degree, for weighted averages.  Weighted sums
never yield a place. -/
def Defuzzifier.Places (d : Defuzzifier) (ts : List (Term (Ext ℝ))) : Prop :=
  match d with
  | .integral _ _ => ∀ t ∈ ts, t.Placed
  | .weighted .average .takagiSugeno => ∀ t ∈ ts, t.Singleton
  | .weighted .average .automatic => ∀ t ∈ ts, t.Placed ∨ t.Singleton
  | .weighted .average .tsukamoto => True
  | .weighted .sum _ => False

theorem Weighted.average_shift (ctx ctx' : Ctx (Ext ℝ)) (type : WeightedType) (g : Aggregated (Ext ℝ)) (c : ℝ)
    (h : (Defuzzifier.weighted .average type).Places (g.terms.map Activated.term)) :
    defuzzify ctx' .average type (g.shift (fin c)) = (defuzzify ctx .average type g).map (· + fin c) := by
  unfold defuzzify
  have he : (g.shift (fin c)).terms.isEmpty = g.terms.isEmpty := by simp [Aggregated.shift]
  have hi : inferTypes ((g.shift (fin c)).terms.map Activated.term) = inferTypes (g.terms.map Activated.term) :=
    inferTypes_shift g.terms c
  rw [he, hi]
  split
  · rfl
  · have key : ∀ z z' : Activated (Ext ℝ) → Except Err (Ext ℝ),
        (∀ a, (∃ b ∈ g.terms, b.term = a.term) → z' (a.shift (fin c)) = (z a).map (· + fin c)) →
        (do
          let grouped ← (g.shift (fin c)).grouped
          let s ← sums z' grouped.terms
          (Except.ok (s.1 / s.2) : Except Err (Ext ℝ))) = (do
          let grouped ← g.grouped
          let s ← sums z grouped.terms
          (Except.ok (s.1 / s.2) : Except Err (Ext ℝ))).map (· + fin c) := by
      intro z z' hz
      rw [Aggregated.grouped_shift]
      cases hg : g.grouped with
      | error e => rfl
      | ok k =>
        simp only [Except.map, bind, Except.bind]
        rcases sums_shift c z z' k.terms (fun a ha => hz a (Aggregated.grouped_mem g k hg a ha)) with
          ⟨e, h1, h2⟩ | ⟨s, s', h1, h2, h3⟩
        · simp only [show (Aggregated.shift (fin c) k).terms = k.terms.map (Activated.shift (fin c)) from rfl, h1, h2]
        · simp only [show (Aggregated.shift (fin c) k).terms = k.terms.map (Activated.shift (fin c)) from rfl, h1, h2, h3.ratio]
    have k1 := fun hs : ∀ a ∈ g.terms, a.term.Singleton =>
      key (fun a => a.term.membership ctx a.degree) (fun a => a.term.membership ctx' a.degree)
        fun a ⟨b, hb, e⟩ => Term.constant_shift ctx ctx' a.term (e ▸ hs b hb) a.degree c
    have k2 := key (fun a => a.term.tsukamoto a.degree) (fun a => a.term.tsukamoto a.degree)
      fun a _ => Term.tsukamoto_shift a.term a.degree c
    cases type with
    | automatic =>
      simp only [if_true]
      cases ht : inferTypes (g.terms.map Activated.term) with
      | error e => rfl
      | ok t =>
        cases t with
        | automatic => rfl
        | takagiSugeno =>
          refine k1 fun a ha => ?_
          have h1 := inferTypes_all _ _ ht a.term (List.mem_map_of_mem ha)
          rcases h a.term (List.mem_map_of_mem ha) with (⟨s, hs⟩ | ⟨xy, hs⟩) | hs
          · unfold inferTerm at h1
            rw [hs] at h1
            revert h1
            show (if a.term.isMonotonic = true then WeightedType.tsukamoto else WeightedType.automatic) = .takagiSugeno → _
            split <;> simp
          · unfold inferTerm at h1
            rw [hs] at h1
            revert h1
            show (if a.term.isMonotonic = true then WeightedType.tsukamoto else WeightedType.automatic) = .takagiSugeno → _
            split <;> simp
          · exact hs
        | tsukamoto => exact k2
    | takagiSugeno => exact k1 fun a ha => h a.term (List.mem_map_of_mem ha)
    | tsukamoto => exact k2

/-- C93: a moved fuzzy output is defuzzified to the moved number, with the same exceptions -/
theorem Defuzzifier.defuzzify_shift (ctx ctx' : Ctx (Ext ℝ)) (d : Defuzzifier) (g : Aggregated (Ext ℝ)) (mn mx : Ext ℝ) (c : ℝ)
    (h : d.Places (g.terms.map Activated.term)) :
    d.defuzzify ctx' (g.shift (fin c)) (mn + fin c) (mx + fin c) = (d.defuzzify ctx g mn mx).map (· + fin c) := by
  cases d with
  | integral k r =>
    exact Integral.defuzzify_shift k r _ _ c
      (fun x => Aggregated.membership_shift ctx ctx' g (fun a ha => h a.term (List.mem_map_of_mem ha)) x c) mn mx
  | weighted k t =>
    cases k with
    | average => exact Weighted.average_shift ctx ctx' t g c h
    | sum => exact h.elim

/-! ### engines -/

/-- the variable moved by `c` -/
def Variable.shift (c : S) (v : Variable S) : Variable S :=
  { v with
    terms := v.terms.map (Term.shift c)
    value := v.value + c
    minimum := v.minimum + c
    maximum := v.maximum + c }

def OutputVariable.shift (c : S) (o : OutputVariable S) : OutputVariable S :=
  { o with
    toVariable := o.toVariable.shift c
    fuzzy := o.fuzzy.shift c
    previous := o.previous + c
    default := o.default + c }

/-- every variable moved by the amount that is chosen for its name -/
def World.shift (ci co : Str → S) (w : World S) : World S :=
  ⟨w.inputs.map fun v => v.shift (ci v.name), w.outputs.map fun o => o.shift (co o.name)⟩

/-- every variable moved by the amount that is chosen for its name -/
def Engine.shift (ci co : Str → S) (e : Engine S) : Engine S :=
  { e with
    inputs := e.inputs.map fun v => v.shift (ci v.name)
    outputs := e.outputs.map fun o => o.shift (co o.name) }

theorem Variable.setValue_shift (v : Variable (Ext ℝ)) (x : Ext ℝ) (c : ℝ) :
    (v.shift (fin c)).setValue (x + fin c) = (v.setValue x).shift (fin c) := by
  unfold setValue shift
  simp only [shift_bound]
  split <;> rfl

theorem OutputVariable.setValue_shift (o : OutputVariable (Ext ℝ)) (x : Ext ℝ) (c : ℝ) :
    (o.shift (fin c)).setValue (x + fin c) = (o.setValue x).shift (fin c) := by
  show OutputVariable.mk ((o.toVariable.shift (fin c)).setValue (x + fin c)) _ _ _ _ _ = OutputVariable.mk _ _ _ _ _ _
  rw [Variable.setValue_shift]
  rfl

/-- C93: a moved output variable is defuzzified as the original -/
theorem OutputVariable.defuzzify_shift (ctx ctx' : Ctx (Ext ℝ)) (o : OutputVariable (Ext ℝ)) (c : ℝ)
    (h : ∀ d, o.defuzzifier = some d → d.Places (o.fuzzy.terms.map Activated.term)) :
    (o.shift (fin c)).defuzzify ctx' = (o.defuzzify ctx).map (OutputVariable.shift (fin c)) := by
  unfold OutputVariable.defuzzify
  have e1 : (o.shift (fin c)).enabled = o.enabled := rfl
  have e2 : (o.shift (fin c)).defuzzifier = o.defuzzifier := rfl
  rw [e1, e2]
  split
  · rfl
  · cases hd : o.defuzzifier with
    | none => rfl
    | some d =>
      have e3 : d.defuzzify ctx' (o.shift (fin c)).fuzzy (o.shift (fin c)).minimum (o.shift (fin c)).maximum =
          (d.defuzzify ctx o.fuzzy o.minimum o.maximum).map (· + fin c) :=
        Defuzzifier.defuzzify_shift ctx ctx' d o.fuzzy o.minimum o.maximum c (h d hd)
      simp only [e3]
      cases d.defuzzify ctx o.fuzzy o.minimum o.maximum with
      | error e => rfl
      | ok z =>
        have e4 : (o.shift (fin c)).lockPrevious = o.lockPrevious := rfl
        have e5 : (o.shift (fin c)).previous = o.previous + fin c := rfl
        have e6 : (o.shift (fin c)).default = o.default + fin c := rfl
        simp only [Except.map, bind, Except.bind, e4, e5, e6, shift_isNaN]
        have e7 : (if (o.lockPrevious && Op.isNaN z) = true then o.previous + fin c else z + fin c) =
            (if (o.lockPrevious && Op.isNaN z) = true then o.previous else z) + fin c := by split <;> rfl
        rw [e7, shift_isNaN]
        generalize (if (o.lockPrevious && Op.isNaN z) = true then o.previous else z) = y
        have e8 : (if Op.isNaN y = true then o.default + fin c else y + fin c) =
            (if Op.isNaN y = true then o.default else y) + fin c := by split <;> rfl
        rw [e8]
        congr 1
        rw [← OutputVariable.setValue_shift]
        rfl

theorem shift_modifyLoop (ci co : Str → ℝ) (imp : Option (TNorm (Ext ℝ))) (ps : List (Proposition (Ext ℝ))) (w : World (Ext ℝ)) (d : Ext ℝ) :
    modifyLoop imp (w.shift (fin ∘ ci) (fin ∘ co)) d ps = ((modifyLoop imp w d ps).1.shift (fin ∘ ci) (fin ∘ co), (modifyLoop imp w d ps).2) := by
  induction ps generalizing w d with
  | nil => rfl
  | cons p ps ih =>
    obtain ⟨v, hs, t⟩ := p
    cases v with
    | input i => rfl
    | output i =>
      cases t with
      | none => rfl
      | some j =>
        simp only [modifyLoop]
        have e1 : (w.shift (fin ∘ ci) (fin ∘ co)).outputs[i]? = w.outputs[i]?.map fun o => o.shift (fin (co o.name)) := by
          show (w.outputs.map _)[i]? = _
          rw [List.getElem?_map]
          rfl
        rw [e1]
        cases ho : w.outputs[i]? with
        | none => rfl
        | some o =>
          simp only [Option.map_some]
          have e2 : (o.shift (fin (co o.name))).enabled = o.enabled := rfl
          have e3 : (o.shift (fin (co o.name))).terms[j]? = o.terms[j]?.map (Term.shift (fin (co o.name))) := by
            show (o.terms.map _)[j]? = _
            rw [List.getElem?_map]
          rw [e2, e3]
          split
          · exact ih w d
          · cases applyHedges hs d with
            | error e => rfl
            | ok d' =>
              simp only
              cases o.terms[j]? with
              | none => rfl
              | some t =>
                simp only [Option.map_some]
                rw [← ih]
                congr 1
                show World.mk _ _ = World.mk _ _
                rw [List.map_set]
                congr 2
                simp only [OutputVariable.shift, Aggregated.shift, Aggregated.addTerm, List.map_append, List.map_cons, List.map_nil]
                rfl

theorem shift_blind (ci co : Str → ℝ) (I : List (Variable (Ext ℝ))) (hI : ∀ v ∈ I, ∀ t ∈ v.terms, t.Placed) :
    RuleBlock.Blind (World.shift (fin ∘ ci) (fin ∘ co)) fun w : World (Ext ℝ) => w.inputs = I := by
  refine ⟨?_, ?_, ?_⟩
  · rintro w h1 e c d
    have hprop : ∀ p : Proposition (Ext ℝ), p.degree (w.shift (fin ∘ ci) (fin ∘ co)) = p.degree w := by
      intro p
      have e1 : (w.shift (fin ∘ ci) (fin ∘ co)).isEnabled p.var = w.isEnabled p.var := by
        cases p.var with
        | input i => simp only [World.isEnabled, World.shift, List.getElem?_map, Option.map_map]; rfl
        | output i => simp only [World.isEnabled, World.shift, List.getElem?_map, Option.map_map]; rfl
      have e2 : ∀ j, (w.shift (fin ∘ ci) (fin ∘ co)).termDegree p.var j = w.termDegree p.var j := by
        intro j
        cases p.var with
        | input i =>
          simp only [World.termDegree]
          have : (w.shift (fin ∘ ci) (fin ∘ co)).inputs[i]? = w.inputs[i]?.map fun v => v.shift (fin (ci v.name)) := by
            show (w.inputs.map _)[i]? = _
            rw [List.getElem?_map]
            rfl
          rw [this]
          cases hv : w.inputs[i]? with
          | none => rfl
          | some v =>
            have e3 : (v.shift (fin (ci v.name))).terms[j]? = v.terms[j]?.map (Term.shift (fin (ci v.name))) := by
              show (v.terms.map _)[j]? = _
              rw [List.getElem?_map]
            simp only [Option.map_some, e3]
            cases ht : v.terms[j]? with
            | none => rfl
            | some t =>
              simp only [Option.map_some]
              exact Term.membership_shift _ _ t (hI v (by rw [← h1]; exact List.mem_of_getElem? hv) t (List.mem_of_getElem? ht)) _ _
        | output i =>
          simp only [World.termDegree, World.shift, List.getElem?_map]
          cases w.outputs[i]? with
          | none => rfl
          | some o =>
            simp only [Option.map_some, OutputVariable.shift, Aggregated.shift, Aggregated.activationDegree]
            rw [List.foldlM_map]
            rfl
      unfold Proposition.degree
      rw [e1]
      simp only [e2]
    induction e with
    | prop p => exact hprop p
    | conj l r ihl ihr => simp only [Expr.degree, ihl, ihr]
    | disj l r ihl ihr => simp only [Expr.degree, ihl, ihr]
  · intro w _ x imp ps
    unfold modify
    split
    · rfl
    · exact shift_modifyLoop ci co imp ps w x
  · rintro w h1 x imp ps
    exact (modify_frame w x imp ps).inputs.trans h1

namespace Engine

/-- the terms of inputs stand somewhere, and the outputs yield places -/
structure Placed (e : Engine (Ext ℝ)) : Prop where
  inputs : ∀ v ∈ e.inputs, ∀ t ∈ v.terms, t.Placed
  outputs : ∀ o ∈ e.outputs, ∀ d, o.defuzzifier = some d → d.Places o.terms

theorem _root_.FL.Defuzzifier.Places.mono {d : Defuzzifier} {ts ts' : List (Term (Ext ℝ))} (h : d.Places ts) (hs : ∀ t ∈ ts', t ∈ ts) :
    d.Places ts' := by
  cases d with
  | integral k r => exact fun t ht => h t (hs t ht)
  | weighted k t =>
    cases k with
    | sum => exact h
    | average =>
      cases t with
      | automatic => exact fun t ht => h t (hs t ht)
      | takagiSugeno => exact fun t ht => h t (hs t ht)
      | tsukamoto => exact h

theorem defuzzifyAll_shift (co : Str → ℝ) (I I' : List (Variable (Ext ℝ))) (os done : List (OutputVariable (Ext ℝ)))
    (h : ∀ o ∈ os, ∀ d, o.defuzzifier = some d → d.Places (o.fuzzy.terms.map Activated.term)) :
    defuzzifyAll I' (done.map fun o => o.shift (fin (co o.name))) (os.map fun o => o.shift (fin (co o.name))) =
      ((defuzzifyAll I done os).1.map fun o => o.shift (fin (co o.name)), (defuzzifyAll I done os).2) := by
  induction os generalizing done with
  | nil => rfl
  | cons o os ih =>
    rw [List.map_cons, defuzzifyAll_cons, defuzzifyAll_cons,
      OutputVariable.defuzzify_shift (World.ctx ⟨I, done ++ o :: os⟩) _ o _ (h o List.mem_cons_self)]
    cases hq : o.defuzzify (World.ctx ⟨I, done ++ o :: os⟩) with
    | error e => simp only [Except.map, List.map_append, List.map_cons]
    | ok q =>
      have nq : q.name = o.name := by rw [(defuzzify_frame _ _ _ hq).1]
      have := ih (done ++ [q]) fun o' ho' => h o' (List.mem_cons_of_mem _ ho')
      simp only [List.map_append, List.map_cons, List.map_nil, nq] at this
      exact this

/-- C93: an engine whose variables are moved processes as the original: the same rules are activated
with the same degrees, the same exceptions are thrown, and the outputs are moved with their variables -/
theorem process_shift_partial [Heap (Ext ℝ)] (ci co : Str → ℝ) (e : Engine (Ext ℝ)) (h : e.Placed) :
    (e.shift (fin ∘ ci) (fin ∘ co)).process = (e.process.1.shift (fin ∘ ci) (fin ∘ co), e.process.2) := by
  have hcl : (e.shift (fin ∘ ci) (fin ∘ co)).cleared = e.cleared.shift (fin ∘ ci) (fin ∘ co) := by
    simp only [cleared, shift, World.shift, List.map_map]
    rfl
  have hb := (activateBlocks_blind (shift_blind ci co e.inputs h.inputs) e.blocks e.cleared rfl).1
  have hf := activateBlocks_frame e.blocks e.cleared
  have hinputs : (activateBlocks e.cleared e.blocks).1.inputs = e.inputs := hf.inputs
  have hterms : ∀ o ∈ (activateBlocks e.cleared e.blocks).1.outputs, ∀ d, o.defuzzifier = some d →
      d.Places (o.fuzzy.terms.map Activated.term) := by
    intro o hmem
    obtain ⟨i, hi', rfl⟩ := List.mem_iff_getElem.1 hmem
    have hfo := hf.outputs
    have hi0 : i < e.cleared.outputs.length := by rw [hfo.length_eq]; exact hi'
    obtain ⟨q1, -, l, q2, q3⟩ := (List.forall₂_iff_get.1 hfo).2 i hi0 hi'
    have hi1 : i < e.outputs.length := by simpa [cleared] using hi0
    have hc : e.cleared.outputs[i] = { e.outputs[i] with fuzzy := e.outputs[i].fuzzy.clear } := by simp [cleared]
    simp only [List.get_eq_getElem] at q1 q2 q3
    rw [hc] at q1 q2 q3
    intro d hd
    have hd' : e.outputs[i].defuzzifier = some d := by rw [← hd, q1]
    refine (h.outputs _ (List.getElem_mem hi1) d hd').mono ?_
    intro t ht
    obtain ⟨a, ha, rfl⟩ := List.mem_map.1 ht
    have q2' : (activateBlocks e.cleared e.blocks).1.outputs[i].fuzzy.terms = l := q2
    rw [q2'] at ha
    exact q3 a ha
  rw [process_eq, process_eq, hcl]
  have hbl : (e.shift (fin ∘ ci) (fin ∘ co)).blocks = e.blocks := rfl
  rw [hbl, hb]
  simp only
  cases (activateBlocks e.cleared e.blocks).2.2 with
  | some err => rfl
  | none =>
    have := defuzzifyAll_shift co (activateBlocks e.cleared e.blocks).1.inputs
      ((activateBlocks e.cleared e.blocks).1.shift (fin ∘ ci) (fin ∘ co)).inputs (activateBlocks e.cleared e.blocks).1.outputs [] hterms
    simp only [List.map_nil] at this
    have e2 : ((activateBlocks e.cleared e.blocks).1.shift (fin ∘ ci) (fin ∘ co)).outputs =
        (activateBlocks e.cleared e.blocks).1.outputs.map fun o => o.shift (fin (co o.name)) := rfl
    simp only [e2, this]
    rfl

end Engine

end

end FL

/-! ### examples -/

namespace FL.Shift
open Scalar Ext FL.Rounded

section
variable {S : Type} [Scalar S]

/-- between 0 and 40, cold decreases and warm increases -/
def input (x : S) : Variable S :=
  { Variable.new (cs! "temperature") (lit 0) (lit 40) [⟨cs! "cold", lit 1, .shape (.ramp (lit 40) (lit 0))⟩,
      ⟨cs! "warm", lit 1, .shape (.triangle (lit 0) (lit 40) (lit 60))⟩] with
    value := x }

def output (d : Defuzzifier) (off full : TermKind S) : OutputVariable S :=
  { OutputVariable.new (cs! "power") (lit 0) (lit 100) [⟨cs! "off", lit 1, off⟩, ⟨cs! "full", lit 1, full⟩] with
    fuzzy := ⟨cs! "power", lit 0, lit 100, some (.builtin .maximum), []⟩
    defuzzifier := some d }

def rule (x y : Nat) : Rule S :=
  { Rule.new [] with
    antecedent := some (.prop ⟨.input 0, [], some x⟩)
    conclusions := [⟨.output 0, [], some y⟩] }

/-- if temperature is cold then power is full; if temperature is warm then power is off -/
def heater (x : S) (d : Defuzzifier) (off full : TermKind S) : Engine S :=
  ⟨[], [], [input x], [output d off full], [{ RuleBlock.new [] with
    implication := some (.builtin .minimum)
    rules := [rule 0 1, rule 1 0] }]⟩

/-- in degrees Kelvin instead of Celsius -/
def kelvin (_ : Str) : S := lit (27315 / 100)

def still (_ : Str) : S := lit 0

def mamdani (x : S) : Engine S :=
  heater x (.integral .centroid 10) (.discrete [(lit 0, lit 1), (lit 100, lit 0)]) (.shape (.sShape (lit 0) (lit 100)))

end

local instance : Heap (Ext ℚ) := RuleBlock.stableHeap _
local instance : Heap (Flt dbl) := RuleBlock.stableHeap _

section
variable [Tol ℝ]

theorem input_placed (x : Ext ℝ) : ∀ v ∈ [input x], ∀ t ∈ v.terms, t.Placed := by
  intro v hv t ht
  obtain rfl := List.mem_singleton.1 hv
  simp only [input, Variable.new, List.mem_cons, List.not_mem_nil, or_false] at ht
  rcases ht with rfl | rfl <;> exact Or.inl ⟨_, rfl⟩

/-- a controller with discrete and continuous terms, whatever the temperature -/
theorem mamdani_placed (x : Ext ℝ) : (mamdani x).Placed := by
  refine ⟨input_placed x, fun o ho d hd => ?_⟩
  obtain rfl := List.mem_singleton.1 ho
  cases hd
  intro t ht
  simp only [output, OutputVariable.new, Variable.new, List.mem_cons, List.not_mem_nil, or_false] at ht
  rcases ht with rfl | rfl
  · exact Or.inr ⟨_, rfl⟩
  · exact Or.inl ⟨_, rfl⟩

/-- the theorem applies to it -/
example [Heap (Ext ℝ)] (x : Ext ℝ) (ci co : Str → ℝ) :
    ((mamdani x).shift (fin ∘ ci) (fin ∘ co)).process = ((mamdani x).process.1.shift (fin ∘ ci) (fin ∘ co), (mamdani x).process.2) :=
  Engine.process_shift_partial ci co _ (mamdani_placed x)

/-- a controller with constants -/
example [Heap (Ext ℝ)] (x : Ext ℝ) (ci co : Str → ℝ) (d : Defuzzifier) (hd : d = .weighted .average .automatic) :
    ((heater x d (.constant (fin 0)) (.constant (fin 100))).shift (fin ∘ ci) (fin ∘ co)).process.1 =
      (heater x d (.constant (fin 0)) (.constant (fin 100))).process.1.shift (fin ∘ ci) (fin ∘ co) := by
  refine congrArg Prod.fst (Engine.process_shift_partial ci co _ ⟨input_placed x, fun o ho d' hd' => ?_⟩)
  obtain rfl := List.mem_singleton.1 ho
  cases hd'
  subst hd
  intro t ht
  simp only [output, OutputVariable.new, Variable.new, List.mem_cons, List.not_mem_nil, or_false] at ht
  rcases ht with rfl | rfl <;> exact Or.inr ⟨_, rfl⟩

end

/-- what is computed: the power is not affected by the scale of the temperature, and moves with its own range -/
example :
    let e := heater (S := Ext ℚ) (lit 10) (.integral .centroid 10) (.shape (.triangle (lit 0) (lit 0) (lit 100)))
        (.shape (.ramp (lit 0) (lit 100)))
    (e.shift kelvin still).process.1.outputValues = e.process.1.outputValues ∧
    (e.shift still kelvin).process.1.outputValues = e.process.1.outputValues.map (· + kelvin []) ∧
    (e.process.1.outputValues.all fun y => Op.isFinite y) = true := by decide +kernel

/-- **C93 is violated by weighted sums**: they multiply the origin by the sum of the degrees. -/
theorem sum_violated : let e := heater (S := Ext ℚ) (lit 20) (.weighted .sum .automatic) (.constant (lit 0)) (.constant (lit 100))
    e.process.2 = none ∧ (e.shift still fun _ => lit 10).process.2 = none ∧
    e.process.1.outputValues = [lit 50] ∧ (e.shift still fun _ => lit 10).process.1.outputValues = [lit 60] ∧
    (heater (S := Ext ℚ) (lit 50) (.weighted .sum .automatic) (.constant (lit 0)) (.constant (lit 100))).process.1.outputValues = [lit 0] ∧
    ((heater (S := Ext ℚ) (lit 50) (.weighted .sum .automatic) (.constant (lit 0)) (.constant (lit 100))).shift still
      fun _ => lit 10).process.1.outputValues = [lit 5] := by
  decide +kernel

/-- **C93 is violated by linear terms**, which read the inputs as they are -/
theorem linear_violated : let e := heater (S := Ext ℚ) (lit 20) (.weighted .average .automatic) (.constant (lit 0)) (.linear [lit 1, lit 0] true)
    e.process.1.outputValues = [lit 10] ∧ (e.shift (fun _ => lit 10) still).process.1.outputValues = [lit 15] := by
  decide +kernel

/-- **C93 is violated in double precision**: far from the origin, places cannot be told apart. -/
theorem rounded_violated : let e := heater (S := Flt dbl) (lit 10) (.weighted .average .automatic) (.constant (lit 0)) (.constant (lit 100))
    e.process.2 = none ∧ e.process.1.outputValues = [lit 75] ∧
    (e.shift (fun _ => lit (10 ^ 18)) still).process.2 = none ∧
    (e.shift (fun _ => lit (10 ^ 18)) still).process.1.outputValues ≠ [lit 75] := by
  decide +kernel

end FL.Shift
