import Verif.Filtre.Lemmas
import Verif.Util.Model
import Mathlib.Analysis.SpecialFunctions.Trigonometric.Basic
import Mathlib.Tactic

/-!
# C179: FM broadcast demodulator (core/src/telecom/analogique.cc:380-650), `FMDemod`

The filters, the discriminator, the RDS demodulator and the loop are parameters (models of blocks: `Filtre.Bloc`). Exact arithmetic instead of `float`. The debug figures are not modelled.
-/

namespace Verif.Telecom

open Filtre (Bloc)

/-! ## Model -/

/-- The blocks of the demodulator, core/src/telecom/analogique.cc:382-399: wide band filter, discriminator, filter after the discriminator, RDS demodulator (bits), audio filter, loop on the pilot. -/
structure BlocsFm (A B C D E P : Type) where
  wb : Bloc A ℂ ℂ
  discri : Bloc B ℂ ℝ
  fm : Bloc C ℝ ℝ
  rds : Bloc D ℝ Bool
  audio : Bloc E ℝ ℝ
  pll : Bloc P ℝ ℝ

/-- State, core/src/telecom/analogique.cc:382-403: that of the blocks, and the window `rdec` of the RDS bits. -/
structure EtatFm (A B C D E P : Type) where
  wb : A
  discri : B
  fm : C
  rds : D
  audioL : E
  audioR : E
  pll : P
  rdec : List Bool

/-- Decimation ratio `R` for the sampling frequency `fe`, core/src/telecom/analogique.cc:468-476. -/
noncomputable def ratioFm (fe : ℝ) : ℕ := if 200 ≤ fe then ⌊fe / (65000 * 2)⌋₊ else 1

/-- `sousech`, core/include/tsd/tsd.hpp:367-375; `none`: division by zero. -/
def sousechFm (x : List ℝ) (R : ℕ) : Option (List ℝ) := if R = 0 then none else some ((List.range (x.length / R)).map fun i => x.getD (i * R) 0)

/-- Dimensions of the result of `operator *` between tables, core/src/tableau.cc:1429-1447, 1470: product element by element, `none` when they differ. -/
def dimsProduit (a b : ℕ × ℕ) : Option (ℕ × ℕ) := if a = b then some a else none

/-- One RDS bit, core/src/telecom/analogique.cc:534-573: the window slides, then the four syndromes are computed as the product of a table of 1 row and 26 columns and of `H` (26 rows, 10 columns, core/src/telecom/analogique.cc:414-436). -/
def bitRds (rdec : List Bool) (b : Bool) : Option (List Bool) := (dimsProduit (1, 26) (26, 10)).map fun _ => rdec.drop 1 ++ [b]

/-- The loop on the RDS bits, core/src/telecom/analogique.cc:532-574. -/
def boucleRds : List Bool → List Bool → Option (List Bool)
  | rdec, [] => some rdec
  | rdec, b :: l => (bitRds rdec b).bind fun r : List Bool => boucleRds r l

/-- Left and right channels, stored as real and imaginary parts, core/src/telecom/analogique.cc:598-603. -/
def canaux (lp lm : List ℝ) : List (ℝ × ℝ) := List.zipWith (fun a b => (a + b, a - b)) lp lm

/-- `FMDemod::step`, core/src/telecom/analogique.cc:514-603. -/
noncomputable def EtatFm.step {A B C D E P : Type} (c : BlocsFm A B C D E P) (fe : ℝ) (s : EtatFm A B C D E P) (x : List ℂ) : Option (EtatFm A B C D E P × List (ℝ × ℝ)) :=
  (c.wb s.wb x).bind fun r1 : A × List ℂ =>
  (c.discri s.discri r1.2).bind fun r2 : B × List ℝ =>
  (c.fm s.fm (r2.2.map fun v => v / 75000)).bind fun r3 : C × List ℝ =>
  (sousechFm r3.2 (ratioFm fe)).bind fun a3 : List ℝ =>
  (c.rds s.rds a3).bind fun r4 : D × List Bool =>
  (boucleRds s.rdec r4.2).bind fun rdec : List Bool =>
  (c.audio s.audioL a3).bind fun r5 : E × List ℝ =>
  (c.pll s.pll a3).bind fun r6 : P × List ℝ =>
  (c.audio s.audioR (List.zipWith (fun w v => w ^ 2 * v) r6.2 a3)).map fun r7 : E × List ℝ =>
    (⟨r1.1, r2.1, r3.1, r4.1, r5.1, r7.1, r6.1, rdec⟩, canaux r5.2 r7.2)

/-! ## Proofs -/

/-- **C179 (mono).** Whenever a step succeeds, the half-sum of the two channels is the output of the audio filter on the decimated baseband signal (the mono programme), whatever the pilot and the difference signal. -/
theorem C179_mono {A B C D E P : Type} (c : BlocsFm A B C D E P) (fe : ℝ) (s s' : EtatFm A B C D E P) (x : List ℂ) (y : List (ℝ × ℝ)) (h : s.step c fe x = some (s', y)) :
    ∃ a3 lp lm, c.audio s.audioL a3 = some (s'.audioL, lp) ∧ y = canaux lp lm ∧ (lm.length = lp.length → y.map (fun p => (p.1 + p.2) / 2) = lp) := by
  unfold EtatFm.step at h
  obtain ⟨r1, h1, h⟩ := Option.bind_eq_some_iff.1 h
  obtain ⟨r2, h2, h⟩ := Option.bind_eq_some_iff.1 h
  obtain ⟨r3, h3, h⟩ := Option.bind_eq_some_iff.1 h
  obtain ⟨a3, h4, h⟩ := Option.bind_eq_some_iff.1 h
  obtain ⟨r4, h5, h⟩ := Option.bind_eq_some_iff.1 h
  obtain ⟨rd, h6, h⟩ := Option.bind_eq_some_iff.1 h
  obtain ⟨r5, h7, h⟩ := Option.bind_eq_some_iff.1 h
  obtain ⟨r6, h8, h⟩ := Option.bind_eq_some_iff.1 h
  obtain ⟨r7, h9, h⟩ := Option.map_eq_some_iff.1 h
  simp only [Prod.mk.injEq] at h
  refine ⟨a3, r5.2, r7.2, by rw [h7, ← h.1], h.2.symm, fun hl => ?_⟩
  rw [← h.2, canaux, List.map_zipWith]
  refine List.ext_getElem (by simp [hl]) fun i h1 h2 => ?_
  simp

/-- **C179 (RDS, refuted).** As soon as the RDS demodulator decides one bit, the step fails: the syndrome is computed by a product of tables of different dimensions. -/
theorem C179_rds_refute {A B C D E P : Type} (c : BlocsFm A B C D E P) (fe : ℝ) (s : EtatFm A B C D E P) (x : List ℂ) (r1 : A × List ℂ) (r2 : B × List ℝ) (r3 : C × List ℝ) (a3 : List ℝ) (r4 : D × List Bool)
    (h1 : c.wb s.wb x = some r1) (h2 : c.discri s.discri r1.2 = some r2) (h3 : c.fm s.fm (r2.2.map fun v => v / 75000) = some r3) (h4 : sousechFm r3.2 (ratioFm fe) = some a3) (h5 : c.rds s.rds a3 = some r4) (hb : r4.2 ≠ []) :
    s.step c fe x = none := by
  unfold EtatFm.step
  rw [h1, Option.bind_some, h2, Option.bind_some, h3, Option.bind_some, h4, Option.bind_some, h5, Option.bind_some]
  cases hl : r4.2 with
  | nil => exact absurd hl hb
  | cons b l => rfl

/-- **C179 (sampling frequency, refuted).** For every sampling frequency between 200 Hz and 130 kHz (excluded) the decimation ratio is null, and every step fails. -/
theorem C179_decimation_refute {A B C D E P : Type} (c : BlocsFm A B C D E P) (fe : ℝ) (h1 : 200 ≤ fe) (h2 : fe < 130000) (s : EtatFm A B C D E P) (x : List ℂ) : s.step c fe x = none := by
  have hR : ratioFm fe = 0 := by
    unfold ratioFm
    rw [if_pos h1, Nat.floor_eq_zero, div_lt_one (by norm_num)]
    linarith
  unfold EtatFm.step
  rw [hR]
  cases c.wb s.wb x with
  | none => rfl
  | some r1 =>
    simp only [Option.bind_some]
    cases c.discri s.discri r1.2 with
    | none => rfl
    | some r2 =>
      simp only [Option.bind_some]
      cases c.fm s.fm (r2.2.map fun v => v / 75000) with
      | none => rfl
      | some r3 => rfl

/-- **C179 (cutting, refuted).** The decimation restarts at each block: with a ratio `R ≥ 2`, a block of `R` samples has one output, and the same samples in two blocks `1 + (R - 1)` have none. -/
theorem C179_decoupe_refute (R : ℕ) (hR : 2 ≤ R) (a : ℝ) (l : List ℝ) (hl : l.length = R - 1) :
    sousechFm (a :: l) R = some [a] ∧ sousechFm [a] R = some [] ∧ sousechFm l R = some [] := by
  unfold sousechFm
  have h0 : R ≠ 0 := by omega
  refine ⟨?_, ?_, ?_⟩
  · rw [if_neg h0, List.length_cons, hl, show R - 1 + 1 = R by omega, Nat.div_self (by omega)]
    simp
  · rw [if_neg h0, List.length_singleton, Nat.div_eq_of_lt (by omega)]
    rfl
  · rw [if_neg h0, hl, Nat.div_eq_of_lt (by omega)]
    rfl

/-- An ideal audio filter for the programme `s`, `d` and the pilot of phase `θ`: linear, transparent for the audio signals, null on the pilot and on the audio signals modulated around the harmonics 1 to 4 of the pilot. -/
structure PasseBasIdeal (F : (ℕ → ℝ) → ℕ → ℝ) (θ s d : ℕ → ℝ) : Prop where
  somme : ∀ x y, F (x + y) = F x + F y
  facteur : ∀ (k : ℝ) x, F (k • x) = k • F x
  audio : F s = s ∧ F d = d
  pilote : ∀ k ∈ [1, 3], F (fun n => Real.cos (k * θ n)) = 0
  modules : ∀ k ∈ [2, 4], F (fun n => Real.cos (k * θ n) * s n) = 0 ∧ F (fun n => Real.cos (k * θ n) * d n) = 0

/-- **C179 (stereo, refuted).** Even with an ideal audio filter and an ideally recovered pilot, the stereo channels are not separated: for the composite signal `(L+R) + p cos θ + (L-R) cos 2θ`, the first output is `(7 L + 5 R)/4` and the second `(L + 3 R)/4`
(the square of the pilot has a mean value, and the difference signal is divided by 4). -/
theorem C179_stereo_refute (F : (ℕ → ℝ) → ℕ → ℝ) (θ L R : ℕ → ℝ) (p : ℝ) (hF : PasseBasIdeal F θ (L + R) (L - R)) (n : ℕ) :
    let a3 : ℕ → ℝ := fun n => (L n + R n) + p * Real.cos (θ n) + (L n - R n) * Real.cos (2 * θ n)
    let cw : ℕ → ℝ := fun n => Real.cos (θ n)
    let lp := F a3
    let lm := F (fun n => cw n ^ 2 * a3 n)
    lp n + lm n = (7 * L n + 5 * R n) / 4 ∧ lp n - lm n = (L n + 3 * R n) / 4 := by
  intro a3 cw lp lm
  obtain ⟨hs, hf, ⟨ha, hb⟩, hp, hm⟩ := hF
  have p1 := hp 1 (by simp)
  have p3 := hp 3 (by simp)
  have m2 := hm 2 (by simp)
  have m4 := hm 4 (by simp)
  simp only [one_mul] at p1
  have e1 : a3 = (L + R) + p • (fun n => Real.cos (θ n)) + (fun n => Real.cos (2 * θ n) * (L - R) n) := by
    funext n; simp [a3]; ring
  have e2 : (fun n => cw n ^ 2 * a3 n) = (1 / 2 : ℝ) • (L + R) + (1 / 2 : ℝ) • (fun n => Real.cos (2 * θ n) * (L + R) n) + (3 * p / 4) • (fun n => Real.cos (θ n)) + (p / 4) • (fun n => Real.cos (3 * θ n))
      + (1 / 2 : ℝ) • (fun n => Real.cos (2 * θ n) * (L - R) n) + (1 / 4 : ℝ) • (L - R) + (1 / 4 : ℝ) • (fun n => Real.cos (4 * θ n) * (L - R) n) := by
    funext n
    have c2 : Real.cos (2 * θ n) = 2 * Real.cos (θ n) ^ 2 - 1 := Real.cos_two_mul _
    have c3 : Real.cos (3 * θ n) = 4 * Real.cos (θ n) ^ 3 - 3 * Real.cos (θ n) := Real.cos_three_mul _
    have c4 : Real.cos (4 * θ n) = 2 * Real.cos (2 * θ n) ^ 2 - 1 := by rw [← Real.cos_two_mul]; ring_nf
    simp only [a3, cw, Pi.add_apply, Pi.smul_apply, Pi.sub_apply, smul_eq_mul, c4, c3, c2]
    ring
  have f1 : lp = L + R := by
    show F a3 = _
    rw [e1, hs, hs, hf, p1, m2.2, ha]; simp
  have f2 : lm = (1 / 2 : ℝ) • (L + R) + (1 / 4 : ℝ) • (L - R) := by
    show F (fun n => cw n ^ 2 * a3 n) = _
    have hs' : ∀ (x y : ℕ → ℝ) (k : ℝ), F (x + k • y) = F x + k • F y := fun x y k => by rw [hs, hf]
    rw [e2]
    simp only [hs', hf, ha, hb, p1, p3, m2.1, m2.2, m4.2, smul_zero, add_zero]
  rw [f1, f2]
  simp only [Pi.add_apply, Pi.smul_apply, Pi.sub_apply, smul_eq_mul]
  constructor <;> ring

/-! ### Examples -/

/-- Mean over eight consecutive samples. -/
noncomputable def moyenne8 (x : ℕ → ℝ) : ℕ → ℝ := fun n => (x n + x (n + 1) + x (n + 2) + x (n + 3) + x (n + 4) + x (n + 5) + x (n + 6) + x (n + 7)) / 8

theorem moyenne8_nulle (x : ℕ → ℝ) (m : ℕ) (hm : m = 1 ∨ m = 2 ∨ m = 4) (h : ∀ n, x (n + m) = -x n) : moyenne8 x = 0 := by
  funext n
  unfold moyenne8
  simp only [Pi.zero_apply]
  rcases hm with rfl | rfl | rfl
  · rw [h (n + 6), h (n + 4), h (n + 2), h n]; ring
  · rw [h (n + 5), h (n + 4), h (n + 1), h n]; ring
  · rw [h (n + 3), h (n + 2), h (n + 1), h n]; ring

/-- The hypotheses hold for constant channels, a pilot of 8 samples per period, and the mean over one period. -/
example (a b : ℝ) : PasseBasIdeal moyenne8 (fun n => n * (Real.pi / 4)) ((fun _ => a) + fun _ => b) ((fun _ => a) - fun _ => b) := by
  have per : ∀ (k m : ℕ) (K : ℝ), (k : ℝ) * m * (Real.pi / 4) = (2 * (k * m / 8 : ℕ) + 1 : ℕ) * Real.pi → (m = 1 ∨ m = 2 ∨ m = 4) → moyenne8 (fun n => Real.cos (k * (n * (Real.pi / 4))) * K) = 0 := by
    intro k m K hk hm
    refine moyenne8_nulle _ m hm fun n => ?_
    have e : (k : ℝ) * (((n + m : ℕ) : ℝ) * (Real.pi / 4)) = k * (n * (Real.pi / 4)) + Real.pi + (k * m / 8 : ℕ) * (2 * Real.pi) := by
      push_cast at hk ⊢
      linear_combination hk
    rw [e, Real.cos_add_nat_mul_two_pi, Real.cos_add_pi, neg_mul]
  have h1 : ∀ K : ℝ, moyenne8 (fun n => Real.cos ((1 : ℝ) * (n * (Real.pi / 4))) * K) = 0 := fun K => by exact_mod_cast per 1 4 K (by norm_num; ring) (by simp)
  have h3 : ∀ K : ℝ, moyenne8 (fun n => Real.cos ((3 : ℝ) * (n * (Real.pi / 4))) * K) = 0 := fun K => by exact_mod_cast per 3 4 K (by norm_num; ring) (by simp)
  have h2 : ∀ K : ℝ, moyenne8 (fun n => Real.cos ((2 : ℝ) * (n * (Real.pi / 4))) * K) = 0 := fun K => by exact_mod_cast per 2 2 K (by norm_num; ring) (by simp)
  have h4 : ∀ K : ℝ, moyenne8 (fun n => Real.cos ((4 : ℝ) * (n * (Real.pi / 4))) * K) = 0 := fun K => by exact_mod_cast per 4 1 K (by norm_num; ring) (by simp)
  refine ⟨fun x y => ?_, fun k x => ?_, ⟨?_, ?_⟩, fun k hk => ?_, fun k hk => ?_⟩
  · funext n; simp [moyenne8]; ring
  · funext n; simp [moyenne8]; ring
  · funext n; simp [moyenne8]; ring
  · funext n; simp [moyenne8]; ring
  · simp only [List.mem_cons, List.not_mem_nil, or_false] at hk
    rcases hk with rfl | rfl
    · simpa using h1 1
    · simpa using h3 1
  · simp only [List.mem_cons, List.not_mem_nil, or_false] at hk
    rcases hk with rfl | rfl
    · exact ⟨h2 _, h2 _⟩
    · exact ⟨h4 _, h4 _⟩

/-- A step that succeeds: blocks that copy their input, no RDS bit, sampling frequency 260 kHz. -/
example : ∃ s', EtatFm.step (A := Unit) (B := Unit) (C := Unit) (D := Unit) (E := Unit) (P := Unit) ⟨fun s x => some (s, x), fun s x => some (s, x.map Complex.re), fun s x => some (s, x), fun s _ => some (s, []), fun s x => some (s, x), fun s x => some (s, x)⟩ 260000
    ⟨(), (), (), (), (), (), (), []⟩ [75000, 1, 0, 0] = some (s', [(2, 0), (0, 0)]) := by
  have hR : ratioFm 260000 = 2 := by
    unfold ratioFm
    rw [if_pos (by norm_num), Nat.floor_eq_iff (by norm_num)]
    norm_num
  refine ⟨⟨(), (), (), (), (), (), (), []⟩, ?_⟩
  unfold EtatFm.step
  rw [hR]
  simp [sousechFm, boucleRds, canaux, List.range_succ]
  norm_num

end Verif.Telecom
