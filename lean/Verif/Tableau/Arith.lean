/-
C171  Elementwise arithmetic, comparisons, masks and reductions of arrays
(core/src/tableau.cc:456-468, 688-699, 739-751, 1170-1440, 1472-1560;
core/include/tsd/tableau.hpp:330-500, 657-840, 1190-1480).

A contiguous array (`TabT<T,n>` which is no block view) is its dimension list and its elements in
memory order (column major).  The element type is abstract; an operator on two elements is partial
(`none` = undefined, e.g. an integer division by zero).  `none` as the result of an array operation
means that the call throws or has undefined behaviour.  Rounding of floating point numbers and
overflow of integers are not modelled.
-/
import Verif.Tableau.Dim
import Mathlib.Data.List.GetD
import Mathlib.Data.Real.Basic
import Mathlib.Algebra.Order.Floor.Ring
import Mathlib.Data.Real.Archimedean
import Mathlib.Tactic.Linarith
import Mathlib.Tactic.FieldSimp

namespace TabArith

open Tableau (total egal)

/-- A contiguous array: dimensions and elements.  core/src/tableau.cc:145-175 -/
structure Tab (α : Type) where
  d : List ℕ
  v : List α
deriving DecidableEq

variable {α β : Type}

/-- Dimensions chosen by `setup`: a single one when `m ≤ 1`.  core/src/tableau.cc:688-693 -/
def dims (n m : ℕ) : List ℕ := if 1 < m then [n, m] else [n]

/-- `rows`.  core/src/tableau.cc:739-744 -/
def lignes (x : Tab α) : ℕ := x.d.headD 0

/-- `cols`.  core/src/tableau.cc:746-751 -/
def colonnes (x : Tab α) : ℕ := if x.d.length < 2 then (if lignes x = 0 then 0 else 1) else x.d.getD 1 0

/-- The loop of a binary operator over the two memories, element after element (the Eigen assignment
`m3 = m1 OP m2`): undefined when the second operand is exhausted first.
core/src/tableau.cc:1392-1440 -/
def terme (op : α → α → Option β) : List α → List α → Option (List β)
  | [], _ => some []
  | _ :: _, [] => none
  | a :: l, b :: m => (op a b).bind fun c => (terme op l m).map fun r => c :: r

/-- `operator +`, `operator *`, `operator /` with an array: the dimensions are compared, then the
operation is made element by element; the result has the dimensions of the left operand
(`format_as`).  core/src/tableau.cc:1392-1413, 1436-1440, 456-468 -/
def binaire (op : α → α → Option α) (x y : Tab α) : Option (Tab α) :=
  if egal y.d x.d then (terme op x.v y.v).map fun r => ⟨x.d, r⟩ else none

/-- `operator -` with an array and the assignments `+= -= *= /=`: the dimensions are **not** compared;
Eigen reads the right operand with its own number of rows and columns, and there is no defined
result unless these agree.  core/src/tableau.cc:1415-1433, 1487-1530 -/
def binaireSans (op : α → α → Option α) (x y : Tab α) : Option (Tab α) :=
  if lignes x = lignes y ∧ colonnes x = colonnes y then (terme op x.v y.v).map fun r => ⟨x.d, r⟩ else none

/-- An operation with a scalar already converted to the element type.
core/src/tableau.cc:1361-1390 -/
def scalaire (op : α → α → Option α) (x : Tab α) (s : α) : Option (Tab α) :=
  (x.v.mapM fun a => op a s).map fun r => ⟨x.d, r⟩

/-- Unary minus, `inv`, `cos`, …: one operation on each element.
core/src/tableau.cc:1563-1590, 1612-1625 -/
def unaire (f : α → Option α) (x : Tab α) : Option (Tab α) := (x.v.mapM f).map fun r => ⟨x.d, r⟩

/-! ### Element operations -/

/-- Integer operations of C++ (`int`): the division truncates and is undefined for a zero divisor.
core/src/tableau.cc:1361-1390 -/
def divZ (a b : ℤ) : Option ℤ := if b = 0 then none else some (Int.tdiv a b)

/-- Floating point division, on real numbers; a zero divisor gives no real number.
core/src/tableau.cc:1361-1390 -/
noncomputable def divR (a b : ℝ) : Option ℝ := if b = 0 then none else some (a / b)

/-- `(int) x` for a floating point number: truncation towards zero.
core/include/tsd/tableau.hpp:1450-1480 -/
noncomputable def versZ (x : ℝ) : ℤ := if 0 ≤ x then ⌊x⌋ else ⌈x⌉

/-- `x / tab` for a scalar on the left: the scalar times the inverse of the array, real elements.
core/include/tsd/tableau.hpp:1469-1473; core/src/tableau.cc:1563-1575 -/
noncomputable def gaucheDivR (s : ℝ) (x : Tab ℝ) : Option (Tab ℝ) :=
  (unaire (fun a : ℝ => divR 1 a) x).bind fun y : Tab ℝ => scalaire (fun a b : ℝ => some (a * b)) y s

/-- `x / tab` for integer elements: the scalar is converted first, the inverse is an integer division.
core/include/tsd/tableau.hpp:1469-1473; core/src/tableau.cc:1563-1575 -/
noncomputable def gaucheDivZ (s : ℝ) (x : Tab ℤ) : Option (Tab ℤ) :=
  (unaire (fun a : ℤ => divZ 1 a) x).bind fun y : Tab ℤ => scalaire (fun a b : ℤ => some (a * b)) y (versZ s)

/-- `x - tab` for a scalar on the left: the negated array plus the scalar.
core/include/tsd/tableau.hpp:1476-1480 -/
def gaucheMoins (neg : α → Option α) (plus : α → α → Option α) (s : α) (x : Tab α) : Option (Tab α) :=
  (unaire neg x).bind fun y : Tab α => scalaire plus y s

/-- `x * tab` for integer elements and a floating point scalar.
core/include/tsd/tableau.hpp:1449-1453 -/
noncomputable def gaucheFoisZ (s : ℝ) (x : Tab ℤ) : Option (Tab ℤ) := scalaire (fun a b : ℤ => some (a * b)) x (versZ s)

/-! ### Masks -/

/-- `mask.select(x1, x2)`: the loop runs over the elements of the mask; reading past the end of an
operand is undefined.  core/include/tsd/tableau.hpp:376-388 -/
def choisit : List Bool → List α → List α → Option (List α)
  | [], _, _ => some []
  | b :: m, x1, x2 =>
    (if b then x1.head? else x2.head?).bind fun a : α => (choisit m x1.tail x2.tail).map fun r => a :: r

/-- `mask.select(x1, x2)`, with the dimensions of the mask.
core/include/tsd/tableau.hpp:376-388 -/
def select (b : Tab Bool) (x1 x2 : Tab α) : Option (Tab α) :=
  (choisit b.v x1.v x2.v).map fun r => ⟨dims (lignes b) (colonnes b), r⟩

/-- `Tab::select`: the two operands must have the same format, the result starts as a copy of the
first one, and only the elements covered by the mask are chosen (a mask longer than the operands is
read out of bounds).  core/src/tableau.cc:1000-1027 -/
def selectTab (b : Tab Bool) (x1 x2 : Tab α) : Option (Tab α) :=
  if egal x1.d x2.d then (choisit b.v x1.v x2.v).map fun r => ⟨x1.d, r ++ x1.v.drop r.length⟩ else none

/-- `a && b`, `a || b`: the result has the dimensions of the **right** operand, the loop runs over the
elements of the left one, and the bounds-checked `(i)` access throws when `i` reaches the number of
rows.  core/include/tsd/tableau.hpp:1260-1282, 1146-1180 -/
def logique (op : Bool → Bool → Bool) (a b : Tab Bool) : Option (Tab Bool) :=
  if a.v.length ≤ lignes a ∧ a.v.length ≤ lignes b then
    (terme (fun p q : Bool => some (op q p)) a.v b.v).map fun r => ⟨dims (lignes b) (colonnes b), r⟩
  else none

/-- A comparison with a scalar.  core/src/tableau.cc:1170-1222 -/
def compare (op : α → α → Bool) (x : Tab α) (s : α) : Tab Bool := ⟨dims (lignes x) (colonnes x), x.v.map fun a => op a s⟩

/-- `minCoeff` of a mask seen as numbers: 0 for an empty array.
core/src/tableau.cc:603-629 -/
def minMasque (l : List Bool) : ℕ := if l.isEmpty then 0 else if l.all id then 1 else 0

/-- `maxCoeff` of a mask seen as numbers: 0 for an empty array.
core/src/tableau.cc:631-657 -/
def maxMasque (l : List Bool) : ℕ := if l.any id then 1 else 0

/-- `tous_vrai`.  core/include/tsd/tableau.hpp:355-358 -/
def tousVrai (b : Tab Bool) : Bool := decide (0 < minMasque b.v)

/-- `tous_faux`.  core/include/tsd/tableau.hpp:360-363 -/
def tousFaux (b : Tab Bool) : Bool := decide (maxMasque b.v = 0)

/-- `au_moins_un_vrai`.  core/include/tsd/tableau.hpp:365-368 -/
def unVrai (b : Tab Bool) : Bool := decide (0 < maxMasque b.v)

/-- `au_moins_un_faux`.  core/include/tsd/tableau.hpp:370-373 -/
def unFaux (b : Tab Bool) : Bool := decide (minMasque b.v = 0)

/-! ### Specification -/

/-- An array as the constructors build it: a vector `[n]`, or a matrix `[n, m]` with at least two
columns, and as many elements as the dimensions say. -/
def Tab.Valide (x : Tab α) : Prop :=
  ((∃ n, x.d = [n]) ∨ ∃ n m, 1 < m ∧ x.d = [n, m]) ∧ x.v.length = total x.d

/-- `z` is, element by element, what `op` makes of `x` and `y`, and has the shape of `x`. -/
def ElementParElement (op : α → α → Option β) (x y : Tab α) (z : Tab β) : Prop :=
  z.d = x.d ∧ z.v.length = x.v.length ∧
    ∀ (i : ℕ) (a b : α), x.v[i]? = some a → y.v[i]? = some b → z.v[i]? = op a b ∧ op a b ≠ none

/-! ### Proofs -/

theorem terme_ok (op : α → α → Option β) (l m : List α) (h : l.length ≤ m.length)
    (hop : ∀ (i : ℕ) (a b : α), l[i]? = some a → m[i]? = some b → op a b ≠ none) :
    ∃ r, terme op l m = some r ∧ r.length = l.length ∧
      ∀ (i : ℕ) (a b : α), l[i]? = some a → m[i]? = some b → r[i]? = op a b := by
  induction l generalizing m with
  | nil => exact ⟨[], rfl, rfl, by simp⟩
  | cons a l ih =>
    cases m with
    | nil => simp at h
    | cons b m =>
      obtain ⟨r, hr, hl, hv⟩ := ih m (by simpa using h) (fun i x y hx hy => hop (i + 1) x y (by simpa using hx) (by simpa using hy))
      obtain ⟨c, hc⟩ := Option.ne_none_iff_exists'.1 (hop 0 a b rfl rfl)
      refine ⟨c :: r, by simp [terme, hc, hr], by simp [hl], ?_⟩
      intro i x y hx hy
      cases i with
      | zero =>
        simp only [List.getElem?_cons_zero, Option.some.injEq] at hx hy ⊢
        subst hx; subst hy; exact hc.symm
      | succ i =>
        simp only [List.getElem?_cons_succ] at hx hy ⊢
        exact hv i x y hx hy

theorem terme_def (op : α → α → Option β) (l m : List α) (r : List β) (h : terme op l m = some r) :
    l.length ≤ m.length ∧ ∀ (i : ℕ) (a b : α), l[i]? = some a → m[i]? = some b → op a b ≠ none := by
  induction l generalizing m r with
  | nil => simp
  | cons a l ih =>
    cases m with
    | nil => simp [terme] at h
    | cons b m =>
      simp only [terme, Option.bind_eq_some_iff, Option.map_eq_some_iff] at h
      obtain ⟨c, hc, s, hs, -⟩ := h
      obtain ⟨h1, h2⟩ := ih m s hs
      refine ⟨by simpa using h1, ?_⟩
      intro i x y hx hy
      cases i with
      | zero =>
        simp only [List.getElem?_cons_zero, Option.some.injEq] at hx hy
        subst hx; subst hy; rw [hc]; simp
      | succ i =>
        simp only [List.getElem?_cons_succ] at hx hy
        exact h2 i x y hx hy

theorem valide_dims {x y : Tab α} (hx : x.Valide) (hy : y.Valide) :
    egal y.d x.d = true ↔ x.d = y.d := by
  rw [Tableau.C37_egal]
  constructor
  · rintro ⟨-, h⟩
    have h0 := h 0
    have h1 := h 1
    rcases hx.1 with ⟨n, e⟩ | ⟨n, m, hm, e⟩ <;> rcases hy.1 with ⟨n', e'⟩ | ⟨n', m', hm', e'⟩ <;>
      rw [e, e'] at h0 h1 ⊢ <;> simp [Tableau.etendue] at h0 h1 ⊢ <;> omega
  · intro h; rw [h]; simp

theorem valide_formes {x y : Tab α} (hx : x.Valide) (hy : y.Valide) :
    (lignes x = lignes y ∧ colonnes x = colonnes y) ↔ x.d = y.d := by
  constructor
  · rintro ⟨h0, h1⟩
    rcases hx.1 with ⟨n, e⟩ | ⟨n, m, hm, e⟩ <;> rcases hy.1 with ⟨n', e'⟩ | ⟨n', m', hm', e'⟩ <;>
      simp [lignes, colonnes, e, e'] at h0 h1 ⊢
    · exact h0
    · split at h1 <;> omega
    · split at h1 <;> omega
    · exact ⟨h0, h1⟩
  · intro h; simp [lignes, colonnes, h]

/-- **C171 (sum, product, quotient of arrays).**  For arrays of the same dimensions on which the
element operation is defined, the result exists, has the same dimensions, and is element by element the
operation of the operands. -/
theorem C171_binaire (op : α → α → Option α) (x y : Tab α) (hx : x.Valide) (hy : y.Valide) (hd : x.d = y.d)
    (hop : ∀ (i : ℕ) (a b : α), x.v[i]? = some a → y.v[i]? = some b → op a b ≠ none) :
    ∃ z, binaire op x y = some z ∧ z.Valide ∧ ElementParElement op x y z := by
  have hl : x.v.length ≤ y.v.length := by rw [hx.2, hy.2, hd]
  obtain ⟨r, hr, h1, h2⟩ := terme_ok op x.v y.v hl hop
  refine ⟨⟨x.d, r⟩, ?_, ⟨hx.1, by rw [h1]; exact hx.2⟩, rfl, h1, fun i a b ha hb => ⟨h2 i a b ha hb, hop i a b ha hb⟩⟩
  rw [binaire, if_pos ((valide_dims hx hy).2 hd), hr]; rfl

/-- **C171 (the shapes are checked).**  `+`, `*` and `/` of two arrays throw exactly when the dimensions
differ or an element operation is undefined (integer division by zero). -/
theorem C171_binaire_echec (op : α → α → Option α) (x y : Tab α) (hx : x.Valide) (hy : y.Valide) :
    binaire op x y = none ↔
      (x.d ≠ y.d ∨ ∃ (i : ℕ) (a b : α), x.v[i]? = some a ∧ y.v[i]? = some b ∧ op a b = none) := by
  constructor
  · intro h
    by_cases hd : x.d = y.d
    · right
      by_contra hc
      push Not at hc
      obtain ⟨z, hz, -⟩ := C171_binaire op x y hx hy hd (fun i a b ha hb => hc i a b ha hb)
      rw [hz] at h; cases h
    · exact Or.inl hd
  · intro h
    by_cases hd : x.d = y.d
    · rcases h with h | ⟨i, a, b, ha, hb, hc⟩
      · exact absurd hd h
      · rw [binaire, if_pos ((valide_dims hx hy).2 hd), Option.map_eq_none_iff]
        cases ht : terme op x.v y.v with
        | none => rfl
        | some r => exact absurd hc ((terme_def op _ _ r ht).2 i a b ha hb)
    · rw [binaire, if_neg]
      rw [valide_dims hx hy]; exact hd

/-- **C171 (difference and compound assignments).**  For arrays of the same dimensions `-`, `+=`, `-=`,
`*=`, `/=` give the same result as the checked operators. -/
theorem C171_sans_verification (op : α → α → Option α) (x y : Tab α) (hx : x.Valide) (hy : y.Valide)
    (hd : x.d = y.d) : binaireSans op x y = binaire op x y := by
  rw [binaireSans, binaire, if_pos ((valide_formes hx hy).2 hd), if_pos ((valide_dims hx hy).2 hd)]

theorem terme_comm (op : α → α → Option β) (hc : ∀ a b, op a b = op b a) (l m : List α) (h : l.length = m.length) :
    terme op l m = terme op m l := by
  induction l generalizing m with
  | nil => cases m with
    | nil => rfl
    | cons b m => simp at h
  | cons a l ih => cases m with
    | nil => simp at h
    | cons b m =>
      simp only [List.length_cons, Nat.add_right_cancel_iff] at h
      simp only [terme]; rw [hc a b, ih m h]

/-- **C171 (commutativity).**  `x + y = y + x`, `x * y = y * x`: a commutative element operation gives a
commutative array operation, including the cases where both throw. -/
theorem C171_commute (op : α → α → Option α) (hc : ∀ a b, op a b = op b a) (x y : Tab α) (hx : x.Valide)
    (hy : y.Valide) : binaire op x y = binaire op y x := by
  by_cases hd : x.d = y.d
  · rw [binaire, binaire, if_pos ((valide_dims hx hy).2 hd), if_pos ((valide_dims hy hx).2 hd.symm), hd,
      terme_comm op hc _ _ (by rw [hx.2, hy.2, hd])]
  · rw [binaire, binaire, if_neg (by rw [valide_dims hx hy]; exact hd),
      if_neg (by rw [valide_dims hy hx]; exact fun h => hd h.symm)]

theorem mapM_lu (f : α → Option β) (l : List α) (r : List β) (h : l.mapM f = some r) :
    r.length = l.length ∧ ∀ (i : ℕ) (a : α), l[i]? = some a → r[i]? = f a := by
  induction l generalizing r with
  | nil => simp only [List.mapM_nil, Option.pure_def, Option.some.injEq] at h; subst h; simp
  | cons a l ih =>
    simp only [List.mapM_cons, Option.bind_eq_bind, Option.pure_def, Option.bind_eq_some_iff, Option.some.injEq] at h
    obtain ⟨b, hb, s, hs, rfl⟩ := h
    obtain ⟨h1, h2⟩ := ih s hs
    refine ⟨by simp [h1], ?_⟩
    intro i x hx
    cases i with
    | zero => simp only [List.getElem?_cons_zero, Option.some.injEq] at hx ⊢; subst hx; exact hb.symm
    | succ i => simp only [List.getElem?_cons_succ] at hx ⊢; exact h2 i x hx

theorem mapM_def (f : α → Option β) (l : List α) (h : ∀ a ∈ l, f a ≠ none) : ∃ r, l.mapM f = some r := by
  induction l with
  | nil => exact ⟨[], rfl⟩
  | cons a l ih =>
    obtain ⟨b, hb⟩ := Option.ne_none_iff_exists'.1 (h a List.mem_cons_self)
    obtain ⟨r, hr⟩ := ih (fun x hx => h x (List.mem_cons_of_mem _ hx))
    exact ⟨b :: r, by simp [hb, hr]⟩

theorem mapM_some (f : α → β) (l : List α) : l.mapM (fun a => some (f a)) = some (l.map f) := by
  induction l with
  | nil => rfl
  | cons a l ih => simp [ih]

/-- **C171 (array and scalar).**  When the element operation is defined, `x op s` has the dimensions of
`x` and applies the operation with `s` to each element. -/
theorem C171_scalaire (op : α → α → Option α) (x : Tab α) (s : α) (hx : x.Valide)
    (hop : ∀ a ∈ x.v, op a s ≠ none) :
    ∃ z, scalaire op x s = some z ∧ z.Valide ∧ z.d = x.d ∧ ∀ (i : ℕ) (a : α), x.v[i]? = some a → z.v[i]? = op a s := by
  obtain ⟨r, hr⟩ := mapM_def (fun a => op a s) x.v hop
  obtain ⟨h1, h2⟩ := mapM_lu _ _ _ hr
  exact ⟨⟨x.d, r⟩, by simp [scalaire, hr], ⟨hx.1, by rw [h1]; exact hx.2⟩, rfl, h2⟩

/-- **C171 (scalar minus array).**  With real elements, `s - x` is element by element `s - xᵢ`. -/
theorem C171_scalaire_moins (s : ℝ) (x : Tab ℝ) :
    gaucheMoins (fun a : ℝ => some (-a)) (fun a b : ℝ => some (a + b)) s x = some ⟨x.d, x.v.map fun a => s - a⟩ := by
  simp only [gaucheMoins, unaire, scalaire, mapM_some, Option.map_some, Option.bind_some, List.map_map]
  congr 2
  apply List.map_congr_left
  intro a _
  simp only [Function.comp]; ring

/-- **C171 (scalar divided by array, real elements).**  `s / x` is element by element `s / xᵢ` (no
element being zero). -/
theorem C171_scalaire_divise (s : ℝ) (x : Tab ℝ) (h : ∀ a ∈ x.v, a ≠ 0) :
    gaucheDivR s x = some ⟨x.d, x.v.map fun a => s / a⟩ := by
  have e : x.v.mapM (fun a : ℝ => divR 1 a) = some (x.v.map fun a => 1 / a) := by
    rw [← mapM_some]
    have : ∀ l : List ℝ, (∀ a ∈ l, a ≠ 0) → l.mapM (fun a : ℝ => divR 1 a) = l.mapM fun a => some (1 / a) := by
      intro l
      induction l with
      | nil => intro _; rfl
      | cons a l ih =>
        intro hl
        rw [List.mapM_cons, List.mapM_cons, ih (fun b hb => hl b (List.mem_cons_of_mem _ hb)), divR,
          if_neg (hl a List.mem_cons_self)]
    exact this x.v h
  simp only [gaucheDivR, unaire, scalaire, e, Option.map_some, Option.bind_some, mapM_some, List.map_map]
  congr 2
  apply List.map_congr_left
  intro a _
  simp only [Function.comp]; ring

theorem tdiv_un (a : ℤ) : Int.tdiv 1 a = if a = 1 then 1 else if a = -1 then -1 else 0 := by
  split_ifs with h1 h2
  · subst h1; rfl
  · subst h2; rfl
  · rcases lt_or_ge a 0 with h | h
    · rw [← neg_neg a, Int.tdiv_neg, Int.tdiv_eq_zero_of_lt (by norm_num) (by omega)]; rfl
    · rcases Nat.eq_zero_or_pos a.toNat with h0 | h0
      · have : a = 0 := by omega
        subst this; rfl
      · exact Int.tdiv_eq_zero_of_lt (by norm_num) (by omega)

/-- **C171 (scalar divided by array, integer elements: what happens).**  For integer arrays `s / x` does
not divide: element `i` is the truncated scalar when `xᵢ = 1`, its opposite when `xᵢ = -1`, and 0 for
any other non-zero element. -/
theorem C171_scalaire_divise_entier (s : ℝ) (x : Tab ℤ) (h : ∀ a ∈ x.v, a ≠ 0) :
    gaucheDivZ s x = some ⟨x.d, x.v.map fun a => if a = 1 then versZ s else if a = -1 then -(versZ s) else 0⟩ := by
  have e : x.v.mapM (fun a : ℤ => divZ 1 a) = some (x.v.map fun a => Int.tdiv 1 a) := by
    rw [← mapM_some]
    have : ∀ l : List ℤ, (∀ a ∈ l, a ≠ 0) → l.mapM (fun a : ℤ => divZ 1 a) = l.mapM fun a => some (Int.tdiv 1 a) := by
      intro l
      induction l with
      | nil => intro _; rfl
      | cons a l ih =>
        intro hl
        rw [List.mapM_cons, List.mapM_cons, ih (fun b hb => hl b (List.mem_cons_of_mem _ hb)), divZ,
          if_neg (hl a List.mem_cons_self)]
    exact this x.v h
  simp only [gaucheDivZ, unaire, scalaire, e, Option.map_some, Option.bind_some, mapM_some, List.map_map]
  congr 2
  apply List.map_congr_left
  intro a _
  simp only [Function.comp, tdiv_un]
  split_ifs <;> ring

theorem versZ_ent (n : ℤ) : versZ (n : ℝ) = n := by
  unfold versZ; split <;> simp

/-- **C171 fails for `s / x` with integers.**  `6 / {2, 3}` is `{0, 0}`, not `{3, 2}`. -/
theorem C171_division_entiere_refute :
    gaucheDivZ 6 (⟨[2], [2, 3]⟩ : Tab ℤ) = some ⟨[2], [0, 0]⟩ := by
  rw [C171_scalaire_divise_entier 6 ⟨[2], [2, 3]⟩ (by simp)]
  simp

/-- **C171 fails for a fractional scalar and integers.**  `0.5 * x` is the zero array, for every integer
array. -/
theorem C171_fraction_refute (x : Tab ℤ) : gaucheFoisZ (1 / 2) x = some ⟨x.d, x.v.map fun _ => 0⟩ := by
  have : versZ (1 / 2) = 0 := by
    rw [versZ, if_pos (by norm_num)]
    rw [Int.floor_eq_iff]; norm_num
  simp only [gaucheFoisZ, scalaire, this, mul_zero, mapM_some, Option.map_some]

/-- **C171 fails for `-`, `+=`… of different shapes.**  Where `+` refuses two arrays of different
dimensions with an exception, `-` and the compound assignments make no check: for any two arrays of
different dimensions they have no defined result (in the model: undefined behaviour, not an exception),
although the checked operator would have been able to say so before touching memory. -/
theorem C171_moins_refute (op : α → α → Option α) (x y : Tab α) (hx : x.Valide) (hy : y.Valide)
    (hd : x.d ≠ y.d) : binaireSans op x y = none := by
  rw [binaireSans, if_neg]
  rw [valide_formes hx hy]; exact hd

/-! ### Masks -/

theorem choisit_ok (b : List Bool) (x1 x2 : List α) (h1 : b.length ≤ x1.length) (h2 : b.length ≤ x2.length) :
    ∃ r, choisit b x1 x2 = some r ∧ r.length = b.length ∧
      ∀ (i : ℕ) (c : Bool), b[i]? = some c → r[i]? = if c then x1[i]? else x2[i]? := by
  induction b generalizing x1 x2 with
  | nil => exact ⟨[], rfl, rfl, by simp⟩
  | cons c b ih =>
    cases x1 with
    | nil => simp at h1
    | cons a1 x1 =>
      cases x2 with
      | nil => simp at h2
      | cons a2 x2 =>
        obtain ⟨r, hr, hl, hv⟩ := ih x1 x2 (by simpa using h1) (by simpa using h2)
        refine ⟨(if c then a1 else a2) :: r, ?_, by simp [hl], ?_⟩
        · simp only [choisit, List.head?_cons, List.tail_cons, hr, Option.map_some]
          cases c <;> rfl
        · intro i d hd
          cases i with
          | zero =>
            simp only [List.getElem?_cons_zero, Option.some.injEq] at hd ⊢
            subst hd; cases c <;> rfl
          | succ i =>
            simp only [List.getElem?_cons_succ] at hd ⊢
            exact hv i d hd

theorem dims_valide {x : Tab α} (hx : x.Valide) : dims (lignes x) (colonnes x) = x.d := by
  rcases hx.1 with ⟨n, e⟩ | ⟨n, m, hm, e⟩
  · simp only [dims, lignes, colonnes, e]
    rw [if_neg]
    · simp
    · simp; split <;> omega
  · simp [dims, lignes, colonnes, e, hm]

/-- **C171 (select).**  For a mask and two arrays of the same dimensions, both forms of `select` give the
array whose element `i` is the one of the first array where the mask is true and of the second one
elsewhere. -/
theorem C171_select (b : Tab Bool) (x1 x2 : Tab α) (hb : b.Valide) (h1 : x1.Valide) (h2 : x2.Valide)
    (e1 : b.d = x1.d) (e2 : b.d = x2.d) :
    ∃ z, select b x1 x2 = some z ∧ selectTab b x1 x2 = some z ∧ z.Valide ∧ z.d = b.d ∧
      ∀ (i : ℕ) (c : Bool), b.v[i]? = some c → z.v[i]? = if c then x1.v[i]? else x2.v[i]? := by
  have l1 : b.v.length = x1.v.length := by rw [hb.2, h1.2, e1]
  have l2 : b.v.length = x2.v.length := by rw [hb.2, h2.2, e2]
  obtain ⟨r, hr, hl, hv⟩ := choisit_ok b.v x1.v x2.v (by omega) (by omega)
  refine ⟨⟨b.d, r⟩, ?_, ?_, ⟨hb.1, by rw [hl]; exact hb.2⟩, rfl, hv⟩
  · simp only [select, hr, Option.map_some, dims_valide hb]
  · rw [selectTab, if_pos ((valide_dims h2 h1).2 (by rw [← e1, ← e2])), hr]
    simp only [Option.map_some, e1]
    rw [hl, l1, List.drop_length, List.append_nil]

/-- **C171 fails for a short mask.**  `Tab::select` does not compare the mask with the operands: with a
mask of one element, all but the first element come from the first array; a longer mask reads past the
end. -/
theorem C171_select_refute (a b c d : α) :
    selectTab ⟨[1], [false]⟩ ⟨[2], [a, b]⟩ ⟨[2], [c, d]⟩ = some ⟨[2], [c, b]⟩ ∧
    selectTab ⟨[2], [true, true]⟩ ⟨[1], [a]⟩ ⟨[1], [c]⟩ = none := by
  constructor <;> rfl

/-- **C171 (logical operators on vectors).**  For two boolean vectors of the same length, `&&` and `||`
are element by element. -/
theorem C171_logique_partial (op : Bool → Bool → Bool) (a b : Tab Bool) (n : ℕ) (ha : a.d = [n]) (hb : b.d = [n])
    (va : a.Valide) (vb : b.Valide) :
    ∃ z, logique op a b = some z ∧ z.d = [n] ∧ z.v.length = n ∧
      ∀ (i : ℕ) (p q : Bool), a.v[i]? = some p → b.v[i]? = some q → z.v[i]? = some (op q p) := by
  have la : a.v.length = n := by rw [va.2, ha]; simp [total]
  have lb : b.v.length = n := by rw [vb.2, hb]; simp [total]
  obtain ⟨r, hr, h1, h2⟩ := terme_ok (fun p q : Bool => some (op q p)) a.v b.v (by omega) (by simp)
  refine ⟨⟨[n], r⟩, ?_, rfl, h1.trans la, h2⟩
  rw [logique, if_pos (by simp [lignes, ha, hb, la]), hr, dims_valide vb, hb]; rfl

/-- **C171 fails for logical operators on matrices.**  `&&` and `||` throw for every boolean matrix with
rows: the access with one index is checked against the number of rows. -/
theorem C171_logique_refute (op : Bool → Bool → Bool) (a b : Tab Bool) (n m : ℕ) (hn : 0 < n) (hm : 1 < m)
    (ha : a.d = [n, m]) (va : a.Valide) : logique op a b = none := by
  have la : a.v.length = n * m := by rw [va.2, ha]; simp [total]
  rw [logique, if_neg]
  rintro ⟨h, -⟩
  rw [la] at h
  simp only [lignes, ha, List.headD_cons] at h
  nlinarith

/-- **C171 (comparisons).**  A comparison with a scalar has the dimensions of the array and compares each
element. -/
theorem C171_compare (op : α → α → Bool) (x : Tab α) (s : α) (hx : x.Valide) :
    (compare op x s).Valide ∧ (compare op x s).d = x.d ∧
      ∀ (i : ℕ) (a : α), x.v[i]? = some a → (compare op x s).v[i]? = some (op a s) := by
  refine ⟨⟨?_, ?_⟩, dims_valide hx, ?_⟩
  · simp only [compare, dims_valide hx]; exact hx.1
  · simp only [compare, dims_valide hx, List.length_map]; exact hx.2
  · intro i a ha; simp [compare, ha]

/-- **C171 (quantifiers over a mask).**  For a non-empty mask the four tests mean what they say. -/
theorem C171_quantificateurs_partial (b : Tab Bool) (h : b.v ≠ []) :
    (tousVrai b = true ↔ ∀ c ∈ b.v, c = true) ∧ (tousFaux b = true ↔ ∀ c ∈ b.v, c = false) ∧
    (unVrai b = true ↔ true ∈ b.v) ∧ (unFaux b = true ↔ false ∈ b.v) := by
  have he : b.v.isEmpty = false := by cases hb : b.v with
    | nil => exact absurd hb h
    | cons => rfl
  have hall : b.v.all id = true ↔ ∀ c ∈ b.v, c = true := by simp [List.all_eq_true]
  have hany : b.v.any id = true ↔ true ∈ b.v := by simp [List.any_eq_true]
  have hany' : (∀ c ∈ b.v, c = false) ↔ ¬ true ∈ b.v := by
    constructor
    · intro hf ht; have := hf true ht; cases this
    · intro hf c hc; cases c with
      | false => rfl
      | true => exact absurd hc hf
  have hall' : false ∈ b.v ↔ ¬ ∀ c ∈ b.v, c = true := by
    constructor
    · intro hf ht; have := ht false hf; cases this
    · intro hf
      by_contra hc
      apply hf
      intro c hm; cases c with
      | true => rfl
      | false => exact absurd hm hc
  rw [hany', hall', ← hall, ← hany]
  simp only [tousVrai, tousFaux, unVrai, unFaux, minMasque, maxMasque, he, decide_eq_true_eq, Bool.false_eq_true, if_false]
  clear hany hall hany' hall'
  refine ⟨?_, ?_, ?_, ?_⟩
  · by_cases hq : b.v.all id = true <;> simp only [hq, if_true, if_false] <;> simp
  · by_cases hq : b.v.any id = true <;> simp only [hq, if_true, if_false] <;> simp
  · by_cases hq : b.v.any id = true <;> simp only [hq, if_true, if_false] <;> simp
  · by_cases hq : b.v.all id = true <;> simp only [hq, if_true, if_false] <;> simp

/-- **C171 fails on an empty mask.**  The minimum of an empty array is 0: `tous_vrai()` is false and
`au_moins_un_faux()` is true for a mask without elements. -/
theorem C171_masque_vide_refute : tousVrai ⟨[0], []⟩ = false ∧ unFaux ⟨[0], []⟩ = true ∧ tousFaux ⟨[0], []⟩ = true := by
  decide

/-- The hypotheses are met: a product of 2 × 2 integer matrices element by element. -/
example : binaire (fun a b : ℤ => some (a * b)) ⟨[2, 2], [1, 2, 3, 4]⟩ ⟨[2, 2], [5, 6, 7, 8]⟩ = some ⟨[2, 2], [5, 12, 21, 32]⟩ ∧
    (⟨[2, 2], [1, 2, 3, 4]⟩ : Tab ℤ).Valide := by
  refine ⟨by decide, Or.inr ⟨2, 2, by norm_num, rfl⟩, by decide⟩

/-- Division by an integer array with a zero is undefined. -/
example : binaire divZ ⟨[2], [6, 7]⟩ ⟨[2], [2, 0]⟩ = none ∧ binaire divZ ⟨[2], [6, -7]⟩ ⟨[2], [2, 2]⟩ = some ⟨[2], [3, -3]⟩ := by
  decide

end TabArith
