import Mathlib.Analysis.SpecialFunctions.Pow.Real
import Mathlib.Analysis.Complex.Norm
import Mathlib.Tactic.Linarith
import Mathlib.Tactic.NormNum
import Mathlib.Tactic.FinCases

/-!
# C198: types of the elements of an array (core/include/tsd/tableau.hpp:66-70, 260-279, 485-524, 1565-1615, 1630-1758, core/src/tableau.cc)

An array knows its scalar type at run time; templates convert between run-time and static types. Elements are exact numbers (roundings between `float` and `double` are not modelled).
-/

namespace Verif.TabTypes

/-! ## Model -/

/-- `Scalaire`, core/include/tsd/tableau.hpp:66-69. -/
inductive Sc | R | C | N | Z | B
  deriving DecidableEq

/-- Run-time format of an array: scalar type and number of bits of an element, core/src/tableau.cc:163-166. -/
structure Fmt where
  sc : Sc
  nbits : ℕ
  deriving DecidableEq

/-- Static types of the elements: the six supported ones, and any other one (with its size in bytes), core/include/tsd/tableau.hpp:264-277. -/
inductive Ty | f32 | f64 | c32 | c64 | i32 | car | autre (octets : ℕ)
  deriving DecidableEq

/-- Size in bytes of an element. -/
def Ty.octets : Ty → ℕ
  | .f32 => 4 | .f64 => 8 | .c32 => 8 | .c64 => 16 | .i32 => 4 | .car => 1 | .autre n => n

/-- `T2S`, core/include/tsd/tableau.hpp:261-278. -/
def t2s : Ty → Fmt
  | .f32 => ⟨.R, 32⟩
  | .f64 => ⟨.R, 64⟩
  | .c32 => ⟨.C, 64⟩
  | .c64 => ⟨.C, 128⟩
  | .i32 => ⟨.Z, 32⟩
  | .car => ⟨.B, 8⟩
  | .autre _ => ⟨.R, 32⟩

/-- `TRI`, core/include/tsd/tableau.hpp:1630-1652. -/
def tri (f : Fmt) : Option Ty := if f.sc = .R then (if f.nbits = 32 then some .f32 else if f.nbits = 64 then some .f64 else none) else none

/-- `TCI`, core/include/tsd/tableau.hpp:1656-1678. -/
def tci (f : Fmt) : Option Ty := if f.sc = .C then (if f.nbits = 64 then some .c32 else if f.nbits = 128 then some .c64 else none) else none

/-- `TZI`, core/include/tsd/tableau.hpp:1680-1696. -/
def tzi (f : Fmt) : Option Ty := if f.sc = .Z then (if f.nbits = 32 then some .i32 else none) else none

/-- `TBI`, core/include/tsd/tableau.hpp:1698-1710: the number of bits is not looked at. -/
def tbi (f : Fmt) : Option Ty := if f.sc = .B then some .car else none

/-- `TG` (`none`: exception), core/include/tsd/tableau.hpp:1754-1758. -/
def tg (f : Fmt) : Option Ty := tri f <|> tci f <|> tzi f <|> tbi f

/-- `TRZ`, core/include/tsd/tableau.hpp:1735-1739. -/
def trz (f : Fmt) : Option Ty := tri f <|> tzi f

/-- An untyped array: format and dimensions. -/
structure Forme where
  fmt : Fmt
  lignes : ℕ
  colonnes : ℕ
  deriving DecidableEq

/-- Bytes allocated by the constructor, core/src/tableau.cc:688-699, 270-277. -/
def alloues (t : Forme) : ℕ := t.lignes * t.colonnes * (t.fmt.nbits / 8)

/-- `TabT<T>(n, m)`, core/include/tsd/tableau.hpp:594-600. -/
def nouveau (T : Ty) (n m : ℕ) : Forme := ⟨t2s T, n, m⟩

/-- `TabT(const Tab &)` (`none`: exception), core/include/tsd/tableau.hpp:495-510. -/
def versTabT (T : Ty) (ndims : ℕ) (t : Forme) : Option Forme := if t.fmt ≠ t2s T then none else if ndims = 1 ∧ 1 < t.colonnes then none else some t

/-- `Tab::segment`, core/src/tableau.cc:515-531: the format is copied (`none`: exception). -/
def segment (t : Forme) (i0 n : ℕ) : Option Forme := if i0 + n ≤ t.lignes then some ⟨t.fmt, n, 1⟩ else none

/-- `Tab::col`, core/src/tableau.cc:496-513: the format is copied (`none`: exception). -/
def col (t : Forme) (num : ℕ) : Option Forme := if num ≤ t.colonnes then some ⟨t.fmt, t.lignes, 1⟩ else none

/-- `Tab::block`, core/src/tableau.cc:543-554: the format stays the one of a default node. -/
def block (_t : Forme) (nr nc : ℕ) : Forme := ⟨⟨.R, 32⟩, nr, nc⟩

/-- The methods of `TabT<T>`, core/include/tsd/tableau.hpp:898-911. -/
def segmentT (T : Ty) (t : Forme) (i0 n : ℕ) : Option Forme := (segment t i0 n).bind fun s : Forme => versTabT T 1 s

/-- `TabT<T,2>::col`, core/include/tsd/tableau.hpp:908-911. -/
def colT (T : Ty) (t : Forme) (num : ℕ) : Option Forme := (col t num).bind fun s : Forme => versTabT T 1 s

/-- `TabT<T,2>::block`, core/include/tsd/tableau.hpp:903-906. -/
def blockT (T : Ty) (t : Forme) (nr nc : ℕ) : Option Forme := versTabT T 2 (block t nr nc)

/-- The format of `abs_i` and `abs2_i`, core/src/tableau.cc:1664-1682: half of the bits for a complex array, the same for a real one, an empty default array otherwise. -/
def absI (t : Forme) : Forme :=
  if (tci t.fmt).isSome then ⟨⟨.R, t.fmt.nbits / 2⟩, t.lignes, t.colonnes⟩ else if (tri t.fmt).isSome then t else ⟨⟨.R, 32⟩, 0, 0⟩

/-- The static type of the result of `abs` and `abs2`, core/include/tsd/tableau.hpp:1565-1572. -/
def Ty.reel : Ty → Ty
  | .c32 => .f32
  | .c64 => .f64
  | T => T

/-- `abs`, `abs2` of a typed array, core/include/tsd/tableau.hpp:1565-1572. -/
def absT (T : Ty) (ndims : ℕ) (t : Forme) : Option Forme := versTabT T.reel ndims (absI t)

/-- Which arrays `x > s`, `x == s` (`s` a scalar) accept, core/src/tableau.cc:1176-1186, 1201-1210. -/
def compareScal (T : Ty) : Bool := (tri (t2s T)).isSome

/-- Which arrays `x > y` accepts, core/src/tableau.cc:1187-1197. -/
def compareTab (T : Ty) : Bool := (trz (t2s T)).isSome

/-- The elements of a type: real, complex or integer numbers. -/
def Ty.Val : Ty → Type
  | .f32 | .f64 => ℝ
  | .c32 | .c64 => ℂ
  | .i32 | .car => ℤ
  | .autre _ => Empty

/-- Bounds of an integer type. -/
def borne : Ty → ℤ → Prop
  | .i32, n => -2 ^ 31 ≤ n ∧ n < 2 ^ 31
  | .car, n => -2 ^ 7 ≤ n ∧ n < 2 ^ 7
  | _, _ => True

/-- Conversion of a real number to an integer type: truncation (`none`: out of range, undefined), core/src/tableau.cc:1004-1007. -/
noncomputable def tronque (T : Ty) (x : ℝ) : Option ℤ :=
  let n : ℤ := if 0 ≤ x then ⌊x⌋ else ⌈x⌉
  @ite _ (borne T n) (Classical.dec _) (some n) none

/-- The real part which `conversion_scalaire` starts from when the target is not complex, core/src/tableau.cc:985-1007. -/
noncomputable def reelle : (S : Ty) → S.Val → ℝ
  | .f32, x | .f64, x => show ℝ from x
  | .c32, x | .c64, x => Complex.re x
  | .i32, x | .car, x => Int.cast (show ℤ from x)

/-- The complex number which `conversion_scalaire` starts from when the target is complex, core/src/tableau.cc:977-989. -/
noncomputable def complexe : (S : Ty) → S.Val → ℂ
  | .f32, x | .f64, x => Complex.ofReal (show ℝ from x)
  | .c32, x | .c64, x => show ℂ from x
  | .i32, x | .car, x => Int.cast (show ℤ from x)

/-- `conversion_scalaire<T, S>`, core/src/tableau.cc:974-1008 (a `char` result keeps the 8 low bits of an integer). -/
noncomputable def convertit : (T S : Ty) → S.Val → Option T.Val
  | .f32, S, x => some (reelle S x)
  | .f64, S, x => some (reelle S x)
  | .c32, S, x => some (complexe S x)
  | .c64, S, x => some (complexe S x)
  | .i32, .i32, x => some x
  | .i32, .car, x => some x
  | .i32, S, x => tronque .i32 (reelle S x)
  | .car, .car, x => some x
  | .car, .i32, x => some (Int.bmod (show ℤ from x) (2 ^ 8))
  | .car, S, x => tronque .car (reelle S x)
  | .autre _, _, _ => none

/-- `as<T>()`: an array of the same dimensions, whose elements are converted one by one, core/include/tsd/tableau.hpp:1602-1609, core/src/tableau.cc:1086-1107. Elements in column order. -/
noncomputable def conversion (T S : Ty) (v : List S.Val) : Option (List T.Val) := v.mapM fun x : S.Val => convertit T S x

/-- Sum of the squared moduli. -/
noncomputable def energie (v : List ℂ) : ℝ := (v.map Complex.normSq).sum

/-- `est_approx(const Tab &, tol)` for real and complex arrays (Eigen's `isApprox`; `none`: the sizes differ, an assertion of Eigen), core/src/tableau.cc:1136-1152. -/
noncomputable def estApprox (x y : List ℂ) (tol : ℝ) : Option Bool :=
  if x.length ≠ y.length then none else some (@decide (energie (List.zipWith (fun a b : ℂ => a - b) x y) ≤ tol * tol * min (energie x) (energie y)) (Classical.dec _))

/-- `est_approx(double, tol)` for real and complex arrays (Eigen's `isApproxToConstant`), core/src/tableau.cc:1159-1168. -/
noncomputable def estApproxScal (x : List ℂ) (c tol : ℝ) : Bool := x.all fun a : ℂ => @decide (‖a - c‖ ≤ min ‖a‖ ‖(c : ℂ)‖ * tol) (Classical.dec _)

/-- `est_nul`, core/src/tableau.cc:1154-1157. -/
noncomputable def estNul (x : List ℂ) : Bool := estApproxScal x 0 0

/-! ## Theorems: formats -/

/-- Specification: the six types which the arrays support. -/
def Supporte (T : Ty) : Prop := T ∈ [Ty.f32, .f64, .c32, .c64, .i32, .car]

/-- **C198 (formats).** For the six supported types the run-time format determines the static type, is found again by the dispatcher, and the allocated memory is the one of the elements. -/
theorem C198_formats (T : Ty) (h : Supporte T) (n m : ℕ) :
    tg (t2s T) = some T ∧ alloues (nouveau T n m) = n * m * T.octets ∧ ∀ S, Supporte S → t2s S = t2s T → S = T := by
  simp only [Supporte, List.mem_cons, List.not_mem_nil, or_false] at h ⊢
  refine ⟨?_, ?_, ?_⟩
  · rcases h with rfl | rfl | rfl | rfl | rfl | rfl <;> rfl
  · rcases h with rfl | rfl | rfl | rfl | rfl | rfl <;> simp [alloues, nouveau, t2s, Ty.octets]
  · rintro S (rfl | rfl | rfl | rfl | rfl | rfl) e <;> rcases h with rfl | rfl | rfl | rfl | rfl | rfl <;> first | rfl | (exact absurd e (by decide))

/-- **C198, violated: other element types.** An array of another type is accepted and takes 4 bytes per element: with larger elements (64 bit integers) the memory is too small, for every non-empty array; and it passes for an array of `float`. -/
theorem C198_autres_refute (o n m : ℕ) (ho : 4 < o) (hn : 0 < n * m) :
    alloues (nouveau (.autre o) n m) < n * m * (Ty.autre o).octets ∧ tg (nouveau (.autre o) n m).fmt = some .f32 ∧ versTabT .f32 2 (nouveau (.autre o) n m) = some (nouveau .f32 n m) := by
  refine ⟨?_, rfl, rfl⟩
  simp only [alloues, nouveau, t2s, Ty.octets, Nat.reduceDiv]
  exact Nat.mul_lt_mul_of_pos_left ho hn

/-- **C198 (views).** For every type, a segment of a vector or a column of a matrix has the format of its parent, so that it is accepted as an array of the same type. -/
theorem C198_vues (T : Ty) (n m i0 k : ℕ) : (i0 + k ≤ n → segmentT T (nouveau T n 1) i0 k = some (nouveau T k 1)) ∧ (k ≤ m → colT T (nouveau T n m) k = some (nouveau T n 1)) := by
  constructor
  · intro h
    simp [segmentT, segment, nouveau, versTabT, h]
  · intro h
    simp [colT, col, nouveau, versTabT, h]

/-- **C198, violated: blocks.** `block` throws for every matrix of complex, double precision, integer or boolean elements, whatever the block; it works for `float` only. -/
theorem C198_block_refute (T : Ty) (h : Supporte T) (n m nr nc : ℕ) : blockT T (nouveau T n m) nr nc = (if T = .f32 then some (nouveau T nr nc) else none) := by
  simp only [Supporte, List.mem_cons, List.not_mem_nil, or_false] at h
  rcases h with rfl | rfl | rfl | rfl | rfl | rfl <;> simp [blockT, block, versTabT, t2s, nouveau]

/-- **C198 (modulus).** The modulus of a real or complex array is a real array of the same dimensions and precision. Violated for integer and boolean arrays: the call throws. -/
theorem C198_abs_refute (T : Ty) (h : Supporte T) (n m : ℕ) :
    absT T 2 (nouveau T n m) = match T with
      | .f32 | .c32 => some (nouveau .f32 n m)
      | .f64 | .c64 => some (nouveau .f64 n m)
      | _ => none := by
  simp only [Supporte, List.mem_cons, List.not_mem_nil, or_false] at h
  rcases h with rfl | rfl | rfl | rfl | rfl | rfl <;> simp [absT, absI, versTabT, Ty.reel, nouveau, t2s, tci, tri]

/-- **C198 (accepted comparisons).** Comparing with an array of the same type is accepted for real and integer elements; with a scalar, for real elements only: the comparison of an integer array with a number throws. -/
theorem C198_compare_refute (T : Ty) (h : Supporte T) : (compareTab T = true ↔ T = .f32 ∨ T = .f64 ∨ T = .i32) ∧ (compareScal T = true ↔ T = .f32 ∨ T = .f64) := by
  simp only [Supporte, List.mem_cons, List.not_mem_nil, or_false] at h
  rcases h with rfl | rfl | rfl | rfl | rfl | rfl <;> decide

/-! ## Theorems: conversions -/

theorem mapM_some {A B : Type} (f : A → Option B) (g : A → B) (l : List A) (h : ∀ a ∈ l, f a = some (g a)) : l.mapM f = some (l.map g) := by
  induction l with
  | nil => rfl
  | cons a l ih => simp [List.mapM_cons, h a (by simp), ih fun b hb => h b (by simp [hb])]

/-- **C198 (widening conversions are lossless).** Real to complex and back, integer to real and back (any `int32`), integer to complex and back, and boolean to integer and back, give the array back, whatever its length. -/
theorem C198_aller_retour (v : List ℝ) (w : List ℤ) (b : List ℤ) (hw : ∀ n ∈ w, -2 ^ 31 ≤ n ∧ n < 2 ^ 31) (hb : ∀ n ∈ b, -2 ^ 7 ≤ n ∧ n < 2 ^ 7) :
    ((conversion .c32 .f32 v).bind (conversion .f32 .c32) = some v) ∧
    ((conversion .f64 .i32 w).bind (conversion .i32 .f64) = some w) ∧
    ((conversion .c64 .i32 w).bind (conversion .i32 .c64) = some w) ∧
    ((conversion .i32 .car b).bind (conversion .car .i32) = some b) := by
  have key : ∀ {A B : Type} (f : A → Option B) (g : B → Option A) (p : A → B) (l : List A), (∀ a, f a = some (p a)) → (∀ a ∈ l, g (p a) = some a) → (l.mapM f).bind (fun l : List B => l.mapM g) = some l := by
    intro A B f g p l h1 h2
    rw [mapM_some f p l fun a _ => h1 a, Option.bind_some]
    induction l with
    | nil => rfl
    | cons a l ih => simp [List.mapM_cons, h2 a (by simp), ih fun b hb => h2 b (by simp [hb])]
  have ht : ∀ n : ℤ, -2 ^ 31 ≤ n ∧ n < 2 ^ 31 → tronque .i32 (n : ℝ) = some n := by
    intro n hn
    have : (if (0 : ℝ) ≤ n then ⌊(n : ℝ)⌋ else ⌈(n : ℝ)⌉) = n := by split <;> simp
    unfold tronque
    rw [this]
    exact if_pos hn
  refine ⟨key (A := ℝ) (B := ℂ) _ _ (fun x : ℝ => (x : ℂ)) v (fun a => rfl) ?_, key (A := ℤ) (B := ℝ) _ _ (fun n : ℤ => (n : ℝ)) w (fun a => rfl) ?_,
    key (A := ℤ) (B := ℂ) _ _ (fun n : ℤ => (n : ℂ)) w (fun a => rfl) ?_, key (A := ℤ) (B := ℤ) _ _ (fun n : ℤ => n) b (fun a => rfl) ?_⟩
  · intro a _
    rfl
  · intro a ha
    exact ht a (hw a ha)
  · intro a ha
    have : (((a : ℤ) : ℂ)).re = (a : ℝ) := by simp
    show tronque .i32 (((a : ℤ) : ℂ)).re = some a
    rw [this]
    exact ht a (hw a ha)
  · intro a ha
    show some (Int.bmod a (2 ^ 8)) = some a
    rw [Int.bmod_eq_of_le_mul_two]
    · have := hb a ha; omega
    · have := hb a ha; omega

/-- **C198 (narrowing conversions).** A complex array converted to real keeps the real parts; a real array converted to integers is truncated towards zero, element by element, as long as the results are in range. -/
theorem C198_reduction (z : List ℂ) (v : List ℝ) (hv : ∀ x ∈ v, -2 ^ 31 < x ∧ x < 2 ^ 31) :
    conversion .f32 .c32 z = some (z.map fun a : ℂ => a.re) ∧
    ∃ w : List ℤ, conversion .i32 .f32 v = some w ∧ w.length = v.length ∧ ∀ i (h : i < v.length) (h' : i < w.length), |((w[i] : ℤ) : ℝ)| ≤ |v[i]| ∧ |v[i]| < |((w[i] : ℤ) : ℝ)| + 1 ∧ 0 ≤ ((w[i] : ℤ) : ℝ) * v[i] := by
  refine ⟨mapM_some (A := ℂ) (B := ℝ) _ _ z fun a _ => rfl, v.map fun x : ℝ => if 0 ≤ x then ⌊x⌋ else ⌈x⌉, mapM_some (A := ℝ) (B := ℤ) _ _ v fun x hx => ?_, by simp, ?_⟩
  · show tronque .i32 x = _
    unfold tronque
    refine if_pos ?_
    obtain ⟨h1, h2⟩ := hv x hx
    show _ ≤ _ ∧ _ < _
    split
    · refine ⟨Int.le_floor.2 (by push_cast; linarith), Int.floor_lt.2 (by push_cast; linarith)⟩
    · rename_i h
      refine ⟨?_, ?_⟩
      · have : (-2 ^ 31 : ℤ) < ⌈x⌉ := Int.lt_ceil.2 (by push_cast; linarith)
        exact this.le
      · have : ⌈x⌉ ≤ (0 : ℤ) := Int.ceil_le.2 (by push_cast; linarith)
        linarith
  · intro i h h'
    simp only [List.getElem_map]
    generalize v[i] = x
    split
    · rename_i hx
      have h0 : (0 : ℤ) ≤ ⌊x⌋ := Int.floor_nonneg.2 hx
      have h0' : (0 : ℝ) ≤ ⌊x⌋ := by exact_mod_cast h0
      rw [abs_of_nonneg hx, abs_of_nonneg h0']
      exact ⟨Int.floor_le x, Int.lt_floor_add_one x, mul_nonneg h0' hx⟩
    · rename_i hx
      have hx : x < 0 := not_le.1 hx
      have h0 : ⌈x⌉ ≤ (0 : ℤ) := Int.ceil_le.2 (by push_cast; linarith)
      have h0' : (⌈x⌉ : ℝ) ≤ 0 := by exact_mod_cast h0
      rw [abs_of_neg hx, abs_of_nonpos h0']
      have := Int.le_ceil x
      have := Int.ceil_lt_add_one x
      refine ⟨by linarith, by linarith, mul_nonneg_of_nonpos_of_nonpos h0' hx.le⟩

/-! ## Theorems: approximate equality -/

theorem energie_nonneg (v : List ℂ) : 0 ≤ energie v := List.sum_nonneg fun x hx => by
  obtain ⟨a, -, rfl⟩ := List.mem_map.1 hx
  exact Complex.normSq_nonneg a

theorem energie_zero (v : List ℂ) : energie v = 0 ↔ ∀ a ∈ v, a = 0 := by
  induction v with
  | nil => simp [energie]
  | cons a l ih =>
    have e : energie (a :: l) = Complex.normSq a + energie l := by simp [energie]
    rw [e, add_eq_zero_iff_of_nonneg (Complex.normSq_nonneg a) (energie_nonneg l), ih, Complex.normSq_eq_zero]
    simp

theorem energie_diff_comm : ∀ x y : List ℂ, energie (List.zipWith (fun a b : ℂ => a - b) x y) = energie (List.zipWith (fun a b : ℂ => a - b) y x)
  | [], y => by cases y <;> rfl
  | a :: x, [] => rfl
  | a :: x, b :: y => by
    have := energie_diff_comm x y
    simp only [energie, List.zipWith_cons_cons, List.map_cons, List.sum_cons] at this ⊢
    rw [this, ← Complex.normSq_neg (a - b), neg_sub]

theorem energie_scal (c : ℂ) (x : List ℂ) : energie (x.map fun a : ℂ => c * a) = Complex.normSq c * energie x := by
  induction x with
  | nil => simp [energie]
  | cons a l ih =>
    simp only [energie, List.map_cons, List.sum_cons, List.map_map] at ih ⊢
    rw [ih, Complex.normSq_mul]
    ring

theorem zip_scal (c : ℂ) : ∀ x y : List ℂ, List.zipWith (fun a b : ℂ => a - b) (x.map fun a : ℂ => c * a) (y.map fun a : ℂ => c * a) = (List.zipWith (fun a b : ℂ => a - b) x y).map fun a : ℂ => c * a
  | [], y => by cases y <;> rfl
  | a :: x, [] => rfl
  | a :: x, b :: y => by
    simp only [List.map_cons, List.zipWith_cons_cons, zip_scal c x y, mul_sub]

theorem diff_zero : ∀ x y : List ℂ, x.length = y.length → (∀ a ∈ List.zipWith (fun a b : ℂ => a - b) x y, a = 0) → x = y
  | [], [], _, _ => rfl
  | a :: x, b :: y, hl, h => by
    simp only [List.zipWith_cons_cons, List.mem_cons, forall_eq_or_imp] at h
    rw [sub_eq_zero.1 h.1, diff_zero x y (by simpa using hl) h.2]

theorem diff_self : ∀ x : List ℂ, ∀ a ∈ List.zipWith (fun a b : ℂ => a - b) x x, a = 0
  | [], a, h => by simp at h
  | b :: x, a, h => by
    simp only [List.zipWith_cons_cons, List.mem_cons, sub_self] at h
    rcases h with rfl | h
    · rfl
    · exact diff_self x a h

/-- **C198 (approximate equality).** On arrays of the same size the test always answers; it is symmetric, holds between an array and itself, is exact equality for a null tolerance, and does not change when both arrays are multiplied by the same non-null number. -/
theorem C198_approx (x y : List ℂ) (hl : x.length = y.length) (tol : ℝ) (c : ℂ) (hc : c ≠ 0) :
    (estApprox x y tol).isSome ∧ estApprox x y tol = estApprox y x tol ∧ estApprox x x tol = some true ∧ (estApprox x y 0 = some true ↔ x = y) ∧
    estApprox (x.map fun a : ℂ => c * a) (y.map fun a : ℂ => c * a) tol = estApprox x y tol := by
  have hself : ∀ x : List ℂ, energie (List.zipWith (fun a b : ℂ => a - b) x x) = 0 := fun x => (energie_zero _).2 (diff_self x)
  unfold estApprox
  refine ⟨by rw [if_neg (not_not.2 hl)]; rfl, ?_, ?_, ?_, ?_⟩
  · rw [if_neg (not_not.2 hl), if_neg (not_not.2 hl.symm), energie_diff_comm, min_comm]
  · rw [if_neg (not_not.2 rfl), hself, min_self]
    simp only [Option.some.injEq, decide_eq_true_eq]
    exact mul_nonneg (mul_self_nonneg tol) (energie_nonneg x)
  · rw [if_neg (not_not.2 hl)]
    simp only [Option.some.injEq, decide_eq_true_eq, mul_zero, zero_mul]
    constructor
    · intro h
      exact diff_zero x y hl ((energie_zero _).1 (le_antisymm h (energie_nonneg _)))
    · rintro rfl
      exact (hself x).le
  · rw [if_neg (by simpa using hl), if_neg (not_not.2 hl), zip_scal, energie_scal, energie_scal, energie_scal]
    have hp : 0 < Complex.normSq c := Complex.normSq_pos.2 hc
    rw [← mul_min_of_nonneg _ _ hp.le]
    congr 2
    rw [eq_iff_iff, show tol * tol * (Complex.normSq c * min (energie x) (energie y)) = Complex.normSq c * (tol * tol * min (energie x) (energie y)) by ring]
    exact mul_le_mul_iff_right₀ hp

/-- **C198 (what the test bounds).** When two arrays are declared approximately equal, the difference of each pair of elements is at most `tol` times the euclidean norm of either array. -/
theorem C198_ecart (x y : List ℂ) (tol : ℝ) (ht : 0 ≤ tol) (h : estApprox x y tol = some true) (i : ℕ) (hx : i < x.length) (hy : i < y.length) :
    ‖x[i] - y[i]‖ ≤ tol * Real.sqrt (energie x) ∧ ‖x[i] - y[i]‖ ≤ tol * Real.sqrt (energie y) := by
  unfold estApprox at h
  split at h
  · exact absurd h (by simp)
  · simp only [Option.some.injEq, decide_eq_true_eq] at h
    have h1 : ‖x[i] - y[i]‖ ^ 2 ≤ energie (List.zipWith (fun a b : ℂ => a - b) x y) := by
      rw [← Complex.normSq_eq_norm_sq]
      refine List.single_le_sum (fun z hz => ?_) _ ?_
      · obtain ⟨a, -, rfl⟩ := List.mem_map.1 hz
        exact Complex.normSq_nonneg a
      · refine List.mem_map.2 ⟨x[i] - y[i], ?_, rfl⟩
        rw [List.mem_iff_getElem]
        exact ⟨i, by simp; omega, by simp⟩
    have key : ∀ e : ℝ, 0 ≤ e → ‖x[i] - y[i]‖ ^ 2 ≤ tol * tol * e → ‖x[i] - y[i]‖ ≤ tol * Real.sqrt e := by
      intro e he hle
      refine le_of_sq_le_sq ?_ (by positivity)
      rw [mul_pow, Real.sq_sqrt he]
      linarith
    refine ⟨key _ (energie_nonneg x) ?_, key _ (energie_nonneg y) ?_⟩
    · exact h1.trans (h.trans (mul_le_mul_of_nonneg_left (min_le_left _ _) (mul_self_nonneg tol)))
    · exact h1.trans (h.trans (mul_le_mul_of_nonneg_left (min_le_right _ _) (mul_self_nonneg tol)))

/-- **C198 (comparison with zero).** `est_nul` holds exactly when all the elements are null. The tolerance being relative, the comparison with zero ignores it: an array is "approximately" zero (the number or the null array), with any tolerance, only when all its elements are null. -/
theorem C198_nul (x : List ℂ) (tol : ℝ) :
    (estNul x = true ↔ ∀ a ∈ x, a = 0) ∧ (estApproxScal x 0 tol = true ↔ ∀ a ∈ x, a = 0) ∧ (estApprox x (List.replicate x.length 0) tol = some true ↔ ∀ a ∈ x, a = 0) := by
  have hs : ∀ tol : ℝ, estApproxScal x 0 tol = true ↔ ∀ a ∈ x, a = 0 := by
    intro tol
    simp only [estApproxScal, List.all_eq_true, decide_eq_true_eq, Complex.ofReal_zero, sub_zero, norm_zero]
    refine forall₂_congr fun a _ => ?_
    rw [min_eq_right (norm_nonneg a), zero_mul]
    exact norm_le_zero_iff
  refine ⟨hs 0, hs tol, ?_⟩
  have hz : List.zipWith (fun a b : ℂ => a - b) x (List.replicate x.length 0) = x := by
    clear hs
    induction x with
    | nil => rfl
    | cons a l ih => simp [List.replicate_succ, ih]
  have h0 : energie (List.replicate x.length 0) = 0 := (energie_zero _).2 fun a ha => (List.mem_replicate.1 ha).2
  unfold estApprox
  rw [if_neg (by simp), hz, h0, min_eq_right (energie_nonneg x), mul_zero]
  simp only [Option.some.injEq, decide_eq_true_eq]
  rw [← energie_zero]
  exact ⟨fun h => le_antisymm h (energie_nonneg x), fun h => h.le⟩

/-- Non-vacuity: 1000 and 1000.001 are approximately equal at 1e-5; 0.001 and 0 are not, even at tolerance 1. -/
example : estApprox [1000] [1000.001] 1e-5 = some true ∧ estApprox [0.001] [0] 1 = some false := by
  constructor
  · unfold estApprox
    rw [if_neg (by simp)]
    simp only [Option.some.injEq, decide_eq_true_eq, energie, List.zipWith_cons_cons, List.zipWith_nil_right, List.map_cons, List.map_nil, List.sum_cons, List.sum_nil]
    have e1 : ((1000 : ℂ) - 1000.001) = ((-0.001 : ℝ) : ℂ) := by push_cast; norm_num
    have e2 : (1000.001 : ℂ) = ((1000.001 : ℝ) : ℂ) := by push_cast; norm_num
    have e3 : (1000 : ℂ) = ((1000 : ℝ) : ℂ) := by push_cast; norm_num
    rw [e1, e2, e3, Complex.normSq_ofReal, Complex.normSq_ofReal, Complex.normSq_ofReal]
    norm_num
  · have := (C198_nul [0.001] 1).2.2
    cases h : estApprox [0.001] [0] 1 with
    | none => simp [estApprox] at h
    | some b =>
      cases b with
      | false => rfl
      | true =>
        have := this.1 h
        norm_num at this

end Verif.TabTypes
