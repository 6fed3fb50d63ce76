import Verif.Filtre.Lemmas
import Mathlib.Analysis.SpecialFunctions.Log.Basic
import Mathlib.Data.List.GetD
import Mathlib.Tactic

/-!
# C180: constant Q transform (core/src/fourier/cqt.cc): sizes and schedule of the analysis

The values of the correlations with the kernels are a parameter (`valeur`: number of the frequency, buffer, position in the buffer). Exact arithmetic instead of `float` in the configuration.
-/

namespace Verif.Fourier

open Filtre (derniers)

/-! ## Model -/

/-- `CQTConfig`, core/include/tsd/fourier/cqt.hpp:13-33 (without the precision of the kernels). -/
structure CqtCfg where
  fs : ℝ
  fmin : ℝ
  fmax : ℝ
  gamma : ℝ
  Q : ℝ

/-- The loop `tantque(N < ideal_N) N *= 2`, core/src/fourier/cqt.cc:88-91. -/
def boucleTaille (ideal N : ℕ) : ℕ := if N < ideal ∧ 0 < N then boucleTaille ideal (2 * N) else N
termination_by ideal - N

/-- `N`, core/src/fourier/cqt.cc:88-91. -/
noncomputable def CqtCfg.taille (c : CqtCfg) : ℕ := boucleTaille ⌈c.fs * c.Q / c.fmin⌉₊ 1

/-- `nfreqs`, core/src/fourier/cqt.cc:69. -/
noncomputable def CqtCfg.nfreqs (c : CqtCfg) : ℤ := ⌈Real.log (c.fmax / c.fmin) / Real.log c.gamma⌉

/-- `freqs`, core/src/fourier/cqt.cc:98-103: each one is the previous one times `γ`. -/
noncomputable def CqtCfg.freqs (c : CqtCfg) : ℕ → ℝ
  | 0 => c.fmin
  | i + 1 => c.freqs i * c.gamma

/-- Length `ktime` of the kernel of the frequency `f`, core/src/fourier/cqt.cc:115-125. -/
noncomputable def CqtCfg.duree (c : CqtCfg) (f : ℝ) : ℕ :=
  let k := ⌈c.fs * c.Q / f⌉₊
  let k := if k > c.taille - 1 then c.taille - 1 else k
  if k % 2 = 0 then k + 1 else k

/-- The checks of the configuration, core/src/fourier/cqt.cc:74-86; without frequency (or with a negative number of frequencies) the first element of `freqs` does not exist. -/
def CqtCfg.Accepte (c : CqtCfg) : Prop := 1 < c.gamma ∧ 0 < c.Q ∧ 0 < c.fs ∧ 0 < c.fmin ∧ c.fmin ≤ c.fs / 2 ∧ 0 < c.nfreqs

/-- State of the analysis of one frequency: length of the kernel, position in the buffer, absolute position, core/src/fourier/cqt.cc:255. -/
structure FreqCqt where
  kt : ℕ
  kpos : ℕ
  kapos : ℕ

/-- State, core/src/fourier/cqt.cc:250-267: buffer, number of samples waited for, positions, outputs (frequency, time, value). -/
structure EtatCqt where
  tampon : List ℝ
  attendu : ℕ
  freqs : List FreqCqt
  sorties : List (ℕ × ℕ × ℝ)

/-- `configure`, core/src/fourier/cqt.cc:269-282, for kernels of the lengths `kts` and buffers of `N` samples. -/
def EtatCqt.cree (N : ℕ) (kts : List ℕ) : EtatCqt := ⟨List.replicate N 0, N / 2, kts.map fun k => ⟨k, N / 2, 0⟩, []⟩

/-- The loop on the positions of one kernel, core/src/fourier/cqt.cc:330-357: final positions, and times and values of the outputs. With a null shift the loop is endless. -/
def analyse (N kt : ℕ) (v : ℕ → ℝ) (kpos kapos : ℕ) : Option (ℕ × ℕ × List (ℕ × ℝ)) :=
  if kpos + kt ≤ N then
    if kt / 2 = 0 then none
    else (analyse N kt v (kpos + kt / 2) (kapos + kt / 2)).map fun r : ℕ × ℕ × List (ℕ × ℝ) => (r.1, r.2.1, (kapos, v kpos) :: r.2.2)
  else some (kpos, kapos, [])
termination_by N - kpos

/-- The loop on the frequencies, core/src/fourier/cqt.cc:319-362. -/
def frequences (N : ℕ) (valeur : ℕ → List ℝ → ℕ → ℝ) (tampon : List ℝ) : ℕ → List FreqCqt → Option (List FreqCqt × List (ℕ × ℕ × ℝ))
  | _, [] => some ([], [])
  | i, f :: l => (analyse N f.kt (valeur i tampon) f.kpos f.kapos).bind fun r : ℕ × ℕ × List (ℕ × ℝ) =>
    (frequences N valeur tampon (i + 1) l).map fun q : List FreqCqt × List (ℕ × ℕ × ℝ) => (⟨f.kt, r.1, r.2.1⟩ :: q.1, (r.2.2.map fun p : ℕ × ℝ => (i, p.1, p.2)) ++ q.2)

/-- `step1`, core/src/fourier/cqt.cc:298-367. -/
def EtatCqt.step1 (N : ℕ) (valeur : ℕ → List ℝ → ℕ → ℝ) (s : EtatCqt) (x : List ℝ) : Option EtatCqt :=
  if x.length = s.attendu ∧ s.attendu ≤ N then
    let t := s.tampon.drop s.attendu ++ x
    (frequences N valeur t 0 s.freqs).map fun r : List FreqCqt × List (ℕ × ℕ × ℝ) =>
      let m := r.1.foldl (fun a f => min a f.kpos) N
      ⟨t, m, r.1.map fun f => ⟨f.kt, f.kpos - m, f.kapos⟩, s.sorties ++ r.2⟩
  else none

/-- The loop of `step` on the block `x`, core/src/fourier/cqt.cc:284-297: `dec` is `décalage`, `lon` the remaining length. `segment` outside of the vector, and an endless loop when nothing is waited for, are errors. -/
def EtatCqt.boucleStep (N : ℕ) (valeur : ℕ → List ℝ → ℕ → ℝ) (x : List ℝ) (s : EtatCqt) (dec lon : ℕ) : Option EtatCqt :=
  if h : s.attendu ≤ lon ∧ 0 < s.attendu then
    if dec + s.attendu ≤ x.length then
      (s.step1 N valeur ((x.drop dec).take s.attendu)).bind fun s' : EtatCqt => EtatCqt.boucleStep N valeur x s' (dec + s.attendu) (lon - s.attendu)
    else none
  else if s.attendu = 0 then none else some s
termination_by lon

/-- `step`, core/src/fourier/cqt.cc:284-297. -/
def EtatCqt.step (N : ℕ) (valeur : ℕ → List ℝ → ℕ → ℝ) (s : EtatCqt) (x : List ℝ) : Option EtatCqt := s.boucleStep N valeur x 1 x.length

/-! ## Specification -/

/-- Successive calls of `step1` on consecutive blocks. -/
def suite1 (N : ℕ) (valeur : ℕ → List ℝ → ℕ → ℝ) : EtatCqt → List (List ℝ) → Option EtatCqt
  | s, [] => some s
  | s, b :: l => (s.step1 N valeur b).bind fun s' : EtatCqt => suite1 N valeur s' l

/-- Outputs of the frequency `i`: time and value. -/
def deFreq (i : ℕ) (l : List (ℕ × ℕ × ℝ)) : List (ℕ × ℝ) := (l.filter fun p => p.1 == i).map fun p => p.2

/-- The value `v` of the output of time `t` for the frequency `i` has been computed on a buffer which contains, at the position given to the correlation, the samples `t, …, t + kt - 1` of the signal `x`. -/
def ValeurDe (N : ℕ) (valeur : ℕ → List ℝ → ℕ → ℝ) (x : List ℝ) (i kt t : ℕ) (v : ℝ) : Prop :=
  ∃ b k, v = valeur i b k ∧ b.length = N ∧ k + kt ≤ N ∧ (b.drop k).take kt = (x.drop t).take kt

/-! ## Proofs -/

theorem boucleTaille_spec (ideal N : ℕ) (h0 : 0 < N) : ∃ k, boucleTaille ideal N = N * 2 ^ k ∧ ideal ≤ N * 2 ^ k ∧ (k = 0 ∨ N * 2 ^ k < 2 * ideal) := by
  by_cases h : N < ideal
  · obtain ⟨k, e1, e2, e3⟩ := boucleTaille_spec ideal (2 * N) (by omega)
    refine ⟨k + 1, ?_, ?_, Or.inr ?_⟩
    · rw [boucleTaille, if_pos ⟨h, h0⟩, e1]; ring
    · calc ideal ≤ 2 * N * 2 ^ k := e2
        _ = N * 2 ^ (k + 1) := by ring
    · have e : N * 2 ^ (k + 1) = 2 * N * 2 ^ k := by ring
      rw [e]
      rcases e3 with rfl | e3
      · omega
      · exact e3
  · refine ⟨0, ?_, by omega, Or.inl rfl⟩
    rw [boucleTaille, if_neg (by omega)]
    simp
termination_by ideal - N

/-- **C180 (size).** The size of the analysis is the smallest power of two not less than `fs Q / fmin`. -/
theorem C180_taille (c : CqtCfg) : ∃ k, c.taille = 2 ^ k ∧ c.fs * c.Q / c.fmin ≤ (2 : ℝ) ^ k ∧ ∀ j, c.fs * c.Q / c.fmin ≤ (2 : ℝ) ^ j → k ≤ j := by
  obtain ⟨k, e1, e2, e3⟩ := boucleTaille_spec ⌈c.fs * c.Q / c.fmin⌉₊ 1 one_pos
  rw [one_mul] at e1 e2 e3
  refine ⟨k, e1, ?_, fun j hj => ?_⟩
  · have := Nat.ceil_le.1 e2
    exact_mod_cast this
  · rcases e3 with rfl | e3
    · exact Nat.zero_le _
    · have h1 : ⌈c.fs * c.Q / c.fmin⌉₊ ≤ 2 ^ j := Nat.ceil_le.2 (by exact_mod_cast hj)
      have h2 : 2 ^ k < 2 ^ (j + 1) := by rw [pow_succ]; omega
      have := (Nat.pow_lt_pow_iff_right (by norm_num : 1 < 2)).1 h2
      omega

theorem freqs_pow (c : CqtCfg) (i : ℕ) : c.freqs i = c.fmin * c.gamma ^ i := by
  induction i with
  | zero => simp [CqtCfg.freqs]
  | succ i ih => rw [CqtCfg.freqs, ih, pow_succ]; ring

/-- **C180 (frequencies).** The frequencies of an accepted configuration are `fmin γ^i`; all of them are below `fmax`, and the next one is not: the whole band is covered. -/
theorem C180_frequences (c : CqtCfg) (h : c.Accepte) (hf : 0 < c.fmax) (i : ℕ) : c.freqs i = c.fmin * c.gamma ^ i ∧ ((i : ℤ) < c.nfreqs ↔ c.freqs i < c.fmax) := by
  refine ⟨freqs_pow c i, ?_⟩
  obtain ⟨hg, -, -, hm, -, -⟩ := h
  have hl : 0 < Real.log c.gamma := Real.log_pos hg
  rw [CqtCfg.nfreqs, Int.lt_ceil, lt_div_iff₀ hl, freqs_pow, Int.cast_natCast, Real.log_div hf.ne' hm.ne', ← Real.log_pow]
  have hp : 0 < c.gamma ^ i := pow_pos (by linarith) i
  rw [← Real.log_lt_log_iff (by positivity) hf, Real.log_mul hm.ne' hp.ne']
  constructor <;> intro h <;> linarith

/-- **C180 (kernels).** The lengths of the kernels are odd, and less than the size of the analysis as soon as this one is at least 2; they are at least `fs Q / f` when the frequency is not less than `fmin` and this fits in the analysis. -/
theorem C180_durees (c : CqtCfg) (f : ℝ) (h2 : 2 ≤ c.taille) : c.duree f % 2 = 1 ∧ c.duree f < c.taille ∧ (c.fs * c.Q / f ≤ c.taille - 1 → c.fs * c.Q / f ≤ c.duree f) := by
  obtain ⟨k, e1, -⟩ := C180_taille c
  have hev : c.taille % 2 = 0 := by
    cases k with
    | zero => rw [e1] at h2; omega
    | succ k => rw [e1, pow_succ]; omega
  unfold CqtCfg.duree
  dsimp only
  have hb : (if ⌈c.fs * c.Q / f⌉₊ > c.taille - 1 then c.taille - 1 else ⌈c.fs * c.Q / f⌉₊) ≤ c.taille - 1 := by
    split
    · exact le_refl _
    · omega
  refine ⟨?_, ?_, fun hx => ?_⟩
  · generalize (if ⌈c.fs * c.Q / f⌉₊ > c.taille - 1 then c.taille - 1 else ⌈c.fs * c.Q / f⌉₊) = k at *
    split <;> omega
  · generalize (if ⌈c.fs * c.Q / f⌉₊ > c.taille - 1 then c.taille - 1 else ⌈c.fs * c.Q / f⌉₊) = k at *
    split <;> omega
  have hk : ⌈c.fs * c.Q / f⌉₊ ≤ c.taille - 1 := Nat.ceil_le.2 (by rw [Nat.cast_sub (by omega)]; exact_mod_cast hx)
  rw [if_neg (show ¬ ⌈c.fs * c.Q / f⌉₊ > c.taille - 1 by omega)]
  have := Nat.le_ceil (c.fs * c.Q / f)
  split
  · push_cast; linarith
  · exact this

theorem analyse_spec (N kt : ℕ) (v : ℕ → ℝ) (h : 0 < kt / 2) (kpos kapos : ℕ) :
    ∃ M, analyse N kt v kpos kapos = some (kpos + M * (kt / 2), kapos + M * (kt / 2), (List.range M).map fun m => (kapos + m * (kt / 2), v (kpos + m * (kt / 2)))) ∧ ∀ m, m < M ↔ kpos + m * (kt / 2) + kt ≤ N := by
  by_cases hk : kpos + kt ≤ N
  · obtain ⟨M, e1, e2⟩ := analyse_spec N kt v h (kpos + kt / 2) (kapos + kt / 2)
    refine ⟨M + 1, ?_, fun m => ?_⟩
    · rw [analyse, if_pos hk, if_neg (by omega), e1, Option.map_some]
      simp only [Option.some.injEq, Prod.mk.injEq]
      refine ⟨by ring, by ring, ?_⟩
      rw [List.range_succ_eq_map, List.map_cons, List.map_map]
      simp only [zero_mul, add_zero, List.cons.injEq, true_and]
      refine List.map_congr_left fun m _ => ?_
      simp only [Function.comp, Nat.succ_eq_add_one, Prod.mk.injEq]
      exact ⟨by ring, by congr 1; ring⟩
    · cases m with
      | zero => simp; omega
      | succ m =>
        rw [Nat.add_lt_add_iff_right, e2]
        have : (m + 1) * (kt / 2) = kt / 2 + m * (kt / 2) := by ring
        rw [this, ← add_assoc]
  · refine ⟨0, by rw [analyse, if_neg hk]; simp, fun m => ?_⟩
    constructor
    · intro h0; omega
    · intro h0; exfalso; have : 0 ≤ m * (kt / 2) := Nat.zero_le _; omega
termination_by N - kpos

theorem deFreq_append (i : ℕ) (a b : List (ℕ × ℕ × ℝ)) : deFreq i (a ++ b) = deFreq i a ++ deFreq i b := by simp [deFreq]

theorem deFreq_meme (i : ℕ) (l : List (ℕ × ℝ)) : deFreq i (l.map fun p => (i, p.1, p.2)) = l := by
  unfold deFreq
  rw [List.filter_eq_self.2 (by intro p hp; obtain ⟨q, _, rfl⟩ := List.mem_map.1 hp; simp), List.map_map]
  exact List.map_id _

theorem deFreq_autre (i j : ℕ) (h : j ≠ i) (l : List (ℕ × ℝ)) : deFreq i (l.map fun p => (j, p.1, p.2)) = [] := by
  unfold deFreq
  rw [List.filter_eq_nil_iff.2 (by intro p hp; obtain ⟨q, _, rfl⟩ := List.mem_map.1 hp; simp [h])]
  rfl

theorem frequences_spec (N : ℕ) (valeur : ℕ → List ℝ → ℕ → ℝ) (t : List ℝ) (l : List FreqCqt) : ∀ (i0 : ℕ), (∀ f ∈ l, 0 < f.kt / 2) →
    ∃ r, frequences N valeur t i0 l = some r ∧ r.1.length = l.length ∧ (∀ i, i < i0 → deFreq i r.2 = []) ∧
      ∀ (j : ℕ) (f : FreqCqt), l[j]? = some f → ∃ f' M, r.1[j]? = some f' ∧ f'.kt = f.kt ∧ f'.kpos = f.kpos + M * (f.kt / 2) ∧ f'.kapos = f.kapos + M * (f.kt / 2) ∧
        (∀ m, m < M ↔ f.kpos + m * (f.kt / 2) + f.kt ≤ N) ∧ deFreq (i0 + j) r.2 = (List.range M).map fun m => (f.kapos + m * (f.kt / 2), valeur (i0 + j) t (f.kpos + m * (f.kt / 2))) := by
  induction l with
  | nil => intro i0 _; exact ⟨([], []), rfl, rfl, fun _ _ => rfl, fun j f h => by simp at h⟩
  | cons f l ih =>
    intro i0 hl
    obtain ⟨q, e1, e2, e3, e4⟩ := ih (i0 + 1) (fun g hg => hl g (List.mem_cons_of_mem _ hg))
    obtain ⟨M, a1, a2⟩ := analyse_spec N f.kt (valeur i0 t) (hl f (List.mem_cons_self)) f.kpos f.kapos
    refine ⟨(⟨f.kt, f.kpos + M * (f.kt / 2), f.kapos + M * (f.kt / 2)⟩ :: q.1, (((List.range M).map fun m => (f.kapos + m * (f.kt / 2), valeur i0 t (f.kpos + m * (f.kt / 2)))).map fun p : ℕ × ℝ => (i0, p.1, p.2)) ++ q.2), by rw [frequences, a1, Option.bind_some, e1, Option.map_some], by simp [e2], fun i hi => ?_, fun j g hj => ?_⟩
    · dsimp only
      rw [deFreq_append, deFreq_autre i i0 (by omega), e3 i (by omega)]
      rfl
    · cases j with
      | zero =>
        rw [List.getElem?_cons_zero] at hj
        cases hj
        refine ⟨⟨f.kt, f.kpos + M * (f.kt / 2), f.kapos + M * (f.kt / 2)⟩, M, by rw [List.getElem?_cons_zero], rfl, rfl, rfl, a2, ?_⟩
        dsimp only
        rw [deFreq_append, add_zero, deFreq_meme, e3 i0 (by omega), List.append_nil]
      | succ j =>
        rw [List.getElem?_cons_succ] at hj
        obtain ⟨f', M', b1, b2, b3, b4, b5, b6⟩ := e4 j g hj
        refine ⟨f', M', by rw [List.getElem?_cons_succ]; exact b1, b2, b3, b4, b5, ?_⟩
        dsimp only
        rw [deFreq_append, deFreq_autre (i0 + (j + 1)) i0 (by omega), List.nil_append, show i0 + (j + 1) = i0 + 1 + j by omega]
        exact b6

theorem foldl_min (l : List FreqCqt) : ∀ (a : ℕ), l.foldl (fun a f => min a f.kpos) a ≤ a ∧ (∀ f ∈ l, l.foldl (fun a f => min a f.kpos) a ≤ f.kpos) ∧
    ∀ b, b ≤ a → (∀ f ∈ l, b ≤ f.kpos) → b ≤ l.foldl (fun a f => min a f.kpos) a := by
  induction l with
  | nil => intro a; exact ⟨le_refl _, by simp, fun b h _ => h⟩
  | cons f l ih =>
    intro a
    obtain ⟨h1, h2, h3⟩ := ih (min a f.kpos)
    rw [List.foldl_cons]
    refine ⟨le_trans h1 (min_le_left _ _), fun g hg => ?_, fun b hb hl => ?_⟩
    · rcases List.mem_cons.1 hg with rfl | hg
      · exact le_trans h1 (min_le_right _ _)
      · exact h2 g hg
    · exact h3 b (le_min hb (hl f List.mem_cons_self)) fun g hg => hl g (List.mem_cons_of_mem _ hg)

/-- Invariant between two calls of `step1`, `x` being the samples received until now. -/
def InvCqt (N : ℕ) (valeur : ℕ → List ℝ → ℕ → ℝ) (kts : List ℕ) (x : List ℝ) (s : EtatCqt) : Prop :=
  s.tampon = derniers 0 N x ∧ s.attendu ≤ N ∧ 0 < s.attendu ∧ s.freqs.map (fun f => f.kt) = kts ∧
  ∀ (i : ℕ) (f : FreqCqt), s.freqs[i]? = some f → f.kpos + x.length + s.attendu = f.kapos + N ∧
    ∃ M, f.kapos = M * (f.kt / 2) ∧ (∀ m, m < M ↔ m * (f.kt / 2) + f.kt ≤ x.length) ∧ (deFreq i s.sorties).map (fun p => p.1) = (List.range M).map (fun m => m * (f.kt / 2)) ∧
      ∀ p ∈ deFreq i s.sorties, ValeurDe N valeur x i f.kt p.1 p.2

theorem derniers_fenetre (N : ℕ) (x : List ℝ) (k kt t : ℕ) (h1 : k + x.length = t + N) : ((derniers 0 N x).drop k).take kt = (x.drop t).take kt := by
  unfold derniers
  rw [List.drop_drop, List.drop_append, List.length_replicate]
  have : (List.replicate N (0 : ℝ)).drop (x.length + k) = [] := List.drop_eq_nil_of_le (by simp; omega)
  rw [this, List.nil_append, show x.length + k - N = t by omega]

theorem inv_step1 (N : ℕ) (valeur : ℕ → List ℝ → ℕ → ℝ) (kts : List ℕ) (hk : ∀ k ∈ kts, 0 < k / 2 ∧ k ≤ N) (hN : 0 < N) (x b : List ℝ) (s : EtatCqt) (h : InvCqt N valeur kts x s) (hb : b.length = s.attendu) :
    ∃ s', s.step1 N valeur b = some s' ∧ InvCqt N valeur kts (x ++ b) s' := by
  obtain ⟨ht, ha, ha0, hm, hf⟩ := h
  have hkt : ∀ f ∈ s.freqs, 0 < f.kt / 2 ∧ f.kt ≤ N := fun f h => hk f.kt (by rw [← hm]; exact List.mem_map_of_mem h)
  have htam : s.tampon.drop s.attendu ++ b = derniers 0 N (x ++ b) := by
    rw [ht]
    unfold derniers
    rw [List.drop_drop, List.length_append, hb, ← List.append_assoc, List.drop_append (l₁ := List.replicate N 0 ++ x), List.length_append, List.length_replicate,
      show x.length + s.attendu - (N + x.length) = 0 by omega, List.drop_zero]
  obtain ⟨r, e1, e2, -, e4⟩ := frequences_spec N valeur (derniers 0 N (x ++ b)) s.freqs 0 (fun f h => (hkt f h).1)
  obtain ⟨m1, m2, m3⟩ := foldl_min r.1 N
  have key : ∀ (i : ℕ) (f' : FreqCqt), r.1[i]? = some f' → ∃ f, s.freqs[i]? = some f := by
    intro i f' hi
    have : i < s.freqs.length := by rw [← e2]; exact (List.getElem?_eq_some_iff.1 hi).1
    exact ⟨_, List.getElem?_eq_getElem this⟩
  refine ⟨⟨derniers 0 N (x ++ b), r.1.foldl (fun a f => min a f.kpos) N, r.1.map fun f => ⟨f.kt, f.kpos - r.1.foldl (fun a f => min a f.kpos) N, f.kapos⟩, s.sorties ++ r.2⟩, by rw [EtatCqt.step1, if_pos ⟨hb, ha⟩]; simp only [htam, e1, Option.map_some], ?_, ?_, ?_, ?_, ?_⟩
  · rfl
  · exact m1
  · refine Nat.lt_of_lt_of_le Nat.one_pos (m3 1 hN fun f' hf' => ?_)
    obtain ⟨i, hi, e⟩ := List.getElem_of_mem hf'
    have hi' : r.1[i]? = some f' := by rw [List.getElem?_eq_getElem hi, e]
    obtain ⟨f, g1⟩ := key i f' hi'
    obtain ⟨f'', M, b1, b2, b3, b4, b5, -⟩ := e4 i f g1
    rw [hi'] at b1
    cases b1
    have h1 := (b5 M).not.1 (lt_irrefl M)
    have h2 := hkt f (List.mem_of_getElem? g1)
    rw [b3]
    omega
  · dsimp only
    rw [List.map_map, ← hm]
    refine List.ext_getElem? fun i => ?_
    rw [List.getElem?_map, List.getElem?_map]
    cases h1 : s.freqs[i]? with
    | none =>
      have : r.1[i]? = none := by rw [List.getElem?_eq_none_iff] at h1 ⊢; omega
      rw [this]; rfl
    | some f =>
      obtain ⟨f', M, b1, b2, -⟩ := e4 i f h1
      rw [b1]
      simp [b2]
  · intro i g hi
    dsimp only at hi ⊢
    rw [List.getElem?_map] at hi
    obtain ⟨f', hf', hg⟩ := Option.map_eq_some_iff.1 hi
    obtain ⟨f, g1⟩ := key i f' hf'
    obtain ⟨f'', M, b1, b2, b3, b4, b5, b6⟩ := e4 i f g1
    rw [zero_add] at b6
    rw [hf'] at b1
    cases b1
    obtain ⟨c1, M0, c2, c3, c4, c5⟩ := hf i f g1
    have hle := m2 f' (List.mem_of_getElem? hf')
    subst hg
    dsimp only
    rw [List.length_append, hb, b2]
    refine ⟨by rw [b4]; rw [b3] at hle ⊢; omega, M0 + M, by rw [b4, c2]; ring, fun m => ?_, ?_, ?_⟩
    · by_cases hmm : m < M0
      · have := (c3 m).1 hmm
        constructor
        · intro _; omega
        · intro _; omega
      · obtain ⟨m', rfl⟩ : ∃ m', m = M0 + m' := ⟨m - M0, by omega⟩
        rw [Nat.add_lt_add_iff_left, b5, add_mul, ← c2]
        constructor <;> intro h <;> omega
    · rw [deFreq_append, List.map_append, c4, b6, List.range_add, List.map_append, List.map_map, List.map_map]
      congr 1
      refine List.map_congr_left fun m _ => ?_
      simp only [Function.comp]
      rw [c2]; ring
    · intro p hp
      rw [deFreq_append, List.mem_append] at hp
      rcases hp with hp | hp
      · obtain ⟨bf, k, d1, d2, d3, d4⟩ := c5 p hp
        refine ⟨bf, k, d1, d2, d3, ?_⟩
        rw [d4]
        have hx : p.1 + f.kt ≤ x.length := by
          have : p.1 ∈ (deFreq i s.sorties).map (fun p => p.1) := List.mem_map_of_mem hp
          rw [c4] at this
          obtain ⟨m, hm1, hm2⟩ := List.mem_map.1 this
          have := (c3 m).1 (List.mem_range.1 hm1)
          omega
        rw [List.drop_append, show p.1 - x.length = 0 by omega, List.drop_zero, List.take_append_of_le_length (by rw [List.length_drop]; omega)]
      · rw [b6] at hp
        obtain ⟨m, hm1, hm2⟩ := List.mem_map.1 hp
        have h5 := (b5 m).1 (List.mem_range.1 hm1)
        rw [← hm2]
        refine ⟨derniers 0 N (x ++ b), f.kpos + m * (f.kt / 2), rfl, Filtre.derniers_length 0 N _, h5, ?_⟩
        exact derniers_fenetre N (x ++ b) _ _ _ (by rw [List.length_append, hb]; omega)

theorem inv_cree (N : ℕ) (valeur : ℕ → List ℝ → ℕ → ℝ) (kts : List ℕ) (h2 : 2 ≤ N) (hev : N % 2 = 0) (hk : ∀ k ∈ kts, 0 < k / 2) : InvCqt N valeur kts [] (EtatCqt.cree N kts) := by
  refine ⟨by simp [EtatCqt.cree, derniers], by simp [EtatCqt.cree]; omega, by simp [EtatCqt.cree]; omega, ?_, fun i f hi => ?_⟩
  · simp [EtatCqt.cree, Function.comp_def]
  · simp only [EtatCqt.cree, List.getElem?_map] at hi
    obtain ⟨k, h1, h3⟩ := Option.map_eq_some_iff.1 hi
    have := hk k (List.mem_of_getElem? h1)
    subst h3
    refine ⟨by simp [EtatCqt.cree]; omega, 0, by simp, fun m => ?_, by simp [EtatCqt.cree, deFreq], by simp [EtatCqt.cree, deFreq]⟩
    simp only [List.length_nil]
    constructor
    · intro h; omega
    · intro h; omega

/-- **C180 (schedule).** Whatever the lengths of the kernels (between 2 and the size of the analysis), when the samples are given in blocks of the length waited for: no call fails, there is always something to wait for, and after the samples `x` the outputs of each frequency are, in this
order, those of the times `0, dt, 2 dt, …` (`dt`: half of the kernel), one for each window of `x` that is complete; each of these outputs has been computed on the samples of its own window. -/
theorem C180_planning (N : ℕ) (valeur : ℕ → List ℝ → ℕ → ℝ) (kts : List ℕ) (h2 : 2 ≤ N) (hev : N % 2 = 0) (hk : ∀ k ∈ kts, 0 < k / 2 ∧ k ≤ N) (blocs : List (List ℝ)) (s : EtatCqt) (h : suite1 N valeur (EtatCqt.cree N kts) blocs = some s) :
    (0 < s.attendu ∧ ∀ b : List ℝ, b.length = s.attendu → (s.step1 N valeur b).isSome) ∧
    ∀ (i kt : ℕ), kts[i]? = some kt → ∃ M, (∀ m, m < M ↔ m * (kt / 2) + kt ≤ blocs.flatten.length) ∧ (deFreq i s.sorties).map (fun p => p.1) = (List.range M).map (fun m => m * (kt / 2)) ∧
      ∀ p ∈ deFreq i s.sorties, ValeurDe N valeur blocs.flatten i kt p.1 p.2 := by
  have main : ∀ (bl : List (List ℝ)) (x : List ℝ) (s0 : EtatCqt), InvCqt N valeur kts x s0 → suite1 N valeur s0 bl = some s → InvCqt N valeur kts (x ++ bl.flatten) s := by
    intro bl
    induction bl with
    | nil => intro x s0 h0 h1; rw [suite1] at h1; cases h1; simpa using h0
    | cons b bl ih =>
      intro x s0 h0 h1
      rw [suite1] at h1
      obtain ⟨s', g1, g2⟩ := Option.bind_eq_some_iff.1 h1
      have hb : b.length = s0.attendu := by
        unfold EtatCqt.step1 at g1
        split at g1
        · rename_i q; exact q.1
        · cases g1
      obtain ⟨s'', g3, g4⟩ := inv_step1 N valeur kts hk (by omega) x b s0 h0 hb
      rw [g1] at g3
      cases g3
      have := ih _ _ g4 g2
      rwa [List.append_assoc] at this
  have inv := main blocs [] _ (inv_cree N valeur kts h2 hev fun k h => (hk k h).1) h
  rw [List.nil_append] at inv
  refine ⟨⟨inv.2.2.1, fun b hb => ?_⟩, fun i kt hi => ?_⟩
  · obtain ⟨s', e, -⟩ := inv_step1 N valeur kts hk (by omega) _ b s inv hb
    rw [e]; rfl
  · obtain ⟨-, -, -, hm, hf⟩ := inv
    rw [← hm, List.getElem?_map] at hi
    obtain ⟨f, f1, f2⟩ := Option.map_eq_some_iff.1 hi
    obtain ⟨-, M, -, d2, d3, d4⟩ := hf i f f1
    rw [f2] at d2 d3 d4
    exact ⟨M, d2, d3, d4⟩

/-! ### `step` -/

theorem boucle_premier (N : ℕ) (valeur : ℕ → List ℝ → ℕ → ℝ) (a b : ℝ) (l : List ℝ) (s : EtatCqt) (dec lon : ℕ) (h : 1 ≤ dec) :
    EtatCqt.boucleStep N valeur (a :: l) s dec lon = EtatCqt.boucleStep N valeur (b :: l) s dec lon := by
  obtain ⟨d, rfl⟩ : ∃ d, dec = d + 1 := ⟨dec - 1, by omega⟩
  rw [EtatCqt.boucleStep, EtatCqt.boucleStep]
  by_cases h1 : s.attendu ≤ lon ∧ 0 < s.attendu
  · rw [dif_pos h1, dif_pos h1, List.length_cons, List.length_cons, List.drop_succ_cons, List.drop_succ_cons]
    have h2 := h1.2
    have h3 : ∀ s', EtatCqt.boucleStep N valeur (a :: l) s' (d + 1 + s.attendu) (lon - s.attendu) = EtatCqt.boucleStep N valeur (b :: l) s' (d + 1 + s.attendu) (lon - s.attendu) :=
      fun s' => boucle_premier N valeur a b l s' _ _ (by omega)
    simp only [h3]
  · rw [dif_neg h1, dif_neg h1]
termination_by lon

/-- **C180 (first sample lost).** The first sample of each block given to `step` is never used. -/
theorem C180_premier_perdu_refute (N : ℕ) (valeur : ℕ → List ℝ → ℕ → ℝ) (s : EtatCqt) (a b : ℝ) (l : List ℝ) : s.step N valeur (a :: l) = s.step N valeur (b :: l) :=
  boucle_premier N valeur a b l s 1 _ (le_refl _)

/-- **C180 (block of the right length).** A block of exactly the number of samples that is waited for is refused (segment outside of the block). -/
theorem C180_longueur_exacte_refute (N : ℕ) (valeur : ℕ → List ℝ → ℕ → ℝ) (s : EtatCqt) (x : List ℝ) (h0 : 0 < s.attendu) (h : x.length = s.attendu) : s.step N valeur x = none := by
  rw [EtatCqt.step, EtatCqt.boucleStep, dif_pos ⟨by omega, h0⟩, if_neg (by omega)]

/-- **C180 (small blocks lost).** A block shorter than the number of samples that is waited for has no effect: its samples are lost. -/
theorem C180_bloc_court_refute (N : ℕ) (valeur : ℕ → List ℝ → ℕ → ℝ) (s : EtatCqt) (x : List ℝ) (h : x.length < s.attendu) : s.step N valeur x = some s := by
  rw [EtatCqt.step, EtatCqt.boucleStep, dif_neg (by omega), if_neg (by omega)]

theorem boucle_suite (N : ℕ) (valeur : ℕ → List ℝ → ℕ → ℝ) (x : List ℝ) (s s' : EtatCqt) (dec lon : ℕ) (hd : dec + lon = x.length + 1) (h0 : 0 < lon) (h : EtatCqt.boucleStep N valeur x s dec lon = some s') :
    ∃ blocs n, suite1 N valeur s blocs = some s' ∧ blocs.flatten = (x.drop dec).take n ∧ n < lon ∧ lon < n + s'.attendu := by
  rw [EtatCqt.boucleStep] at h
  by_cases h1 : s.attendu ≤ lon ∧ 0 < s.attendu
  · rw [dif_pos h1] at h
    by_cases h2 : dec + s.attendu ≤ x.length
    · rw [if_pos h2] at h
      obtain ⟨s1, e1, e2⟩ := Option.bind_eq_some_iff.1 h
      have := h1.2
      obtain ⟨blocs, n, f1, f2, f3, f4⟩ := boucle_suite N valeur x s1 s' (dec + s.attendu) (lon - s.attendu) (by omega) (by omega) e2
      refine ⟨(x.drop dec).take s.attendu :: blocs, s.attendu + n, by rw [suite1, e1, Option.bind_some, f1], ?_, by omega, by omega⟩
      rw [List.flatten_cons, f2, List.take_add, List.drop_drop]
    · rw [if_neg h2] at h; cases h
  · rw [dif_neg h1] at h
    split at h
    · cases h
    · cases h
      exact ⟨[], 0, rfl, by simp, h0, by omega⟩
termination_by lon

/-- **C180 (one block).** When `step` does not fail on a (non empty) block, the analysis is the one of the samples `1, …, n` of this block (not of the sample `0`) given by the right numbers of samples; what remains after them is less than what is waited for, and is lost. -/
theorem C180_step (N : ℕ) (valeur : ℕ → List ℝ → ℕ → ℝ) (x : List ℝ) (s s' : EtatCqt) (hx : x ≠ []) (h : s.step N valeur x = some s') :
    ∃ blocs n, suite1 N valeur s blocs = some s' ∧ blocs.flatten = (x.drop 1).take n ∧ n < x.length ∧ x.length < n + s'.attendu :=
  boucle_suite N valeur x s s' 1 x.length (by omega) (List.length_pos_of_ne_nil hx) h

/-- **C180 (short kernels).** With a kernel of one sample the first analysis does not end. -/
theorem C180_noyau_court_refute (N : ℕ) (valeur : ℕ → List ℝ → ℕ → ℝ) (h2 : 2 ≤ N) (kts : List ℕ) (b : List ℝ) : (EtatCqt.cree N (1 :: kts)).step1 N valeur b = none := by
  unfold EtatCqt.step1
  split
  · simp only [EtatCqt.cree, List.map_cons, frequences]
    rw [analyse, if_pos (by omega), if_pos (by norm_num)]
    rfl
  · rfl

/-- **C180 (short kernels, accepted).** There is an accepted configuration (`Q = 1/2`) whose last kernel has one sample. -/
theorem C180_noyau_court_accepte_refute : ∃ c : CqtCfg, c.Accepte ∧ 2 ≤ c.taille ∧ ∃ i : ℕ, (i : ℤ) < c.nfreqs ∧ c.duree (c.freqs i) = 1 := by
  have hA : (⟨8, 1, 8, 2, 1/2⟩ : CqtCfg).Accepte := by
    refine ⟨by norm_num, by norm_num, by norm_num, by norm_num, by norm_num, ?_⟩
    rw [CqtCfg.nfreqs, Int.ceil_pos]
    exact div_pos (Real.log_pos (by norm_num)) (Real.log_pos (by norm_num))
  have hc : ⌈((8 : ℝ) * (1 / 2) / 1)⌉₊ = 4 := by
    rw [show ((8 : ℝ) * (1 / 2) / 1) = ((4 : ℕ) : ℝ) by norm_num, Nat.ceil_natCast]
  have ht : (⟨8, 1, 8, 2, 1/2⟩ : CqtCfg).taille = 4 := by
    rw [CqtCfg.taille, hc, boucleTaille, if_pos (by norm_num), boucleTaille, if_pos (by norm_num), boucleTaille, if_neg (by norm_num)]
  refine ⟨_, hA, by rw [ht]; norm_num, 2, ?_, ?_⟩
  · exact ((C180_frequences _ hA (by norm_num) 2).2).2 (by rw [freqs_pow]; norm_num)
  · rw [freqs_pow, CqtCfg.duree, ht]
    have : ⌈((8 : ℝ) * (1 / 2) / (1 * 2 ^ 2))⌉₊ = 1 := by
      rw [show ((8 : ℝ) * (1 / 2) / (1 * 2 ^ 2)) = ((1 : ℕ) : ℝ) by norm_num, Nat.ceil_natCast]
    simp only [this]
    norm_num

/-- Non-vacuity of `C180_planning` and `C180_step`: with a buffer of 4 samples and a kernel of 3, a block of 5 samples gives the outputs of the times 0 and 1 of its last 4 samples. -/
example : ∃ s', (EtatCqt.cree 4 [3]).step 4 (fun _ b k => b.getD k 0) [9, 1, 2, 3, 4] = some s' ∧ (deFreq 0 s'.sorties) = [(0, 1), (1, 2)] := by
  have a1 : ∀ v : ℕ → ℝ, analyse 4 3 v 2 0 = some (2, 0, []) := fun v => by rw [analyse, if_neg (by norm_num)]
  have a2 : ∀ v : ℕ → ℝ, analyse 4 3 v 0 0 = some (2, 2, [(0, v 0), (1, v 1)]) := fun v => by
    rw [analyse, if_pos (by norm_num), if_neg (by norm_num), analyse, if_pos (by norm_num), if_neg (by norm_num), analyse, if_neg (by norm_num)]
    rfl
  refine ⟨⟨[1, 2, 3, 4], 2, [⟨3, 0, 2⟩], [(0, 0, 1), (0, 1, 2)]⟩, ?_, by simp [deFreq]⟩
  rw [EtatCqt.step, EtatCqt.boucleStep, dif_pos (by simp [EtatCqt.cree]), if_pos (by simp [EtatCqt.cree])]
  have s1 : (EtatCqt.cree 4 [3]).step1 4 (fun _ b k => b.getD k 0) [1, 2] = some ⟨[0, 0, 1, 2], 2, [⟨3, 0, 0⟩], []⟩ := by
    rw [EtatCqt.step1, if_pos (by simp [EtatCqt.cree])]
    simp [EtatCqt.cree, frequences, a1]
  have s2 : (⟨[0, 0, 1, 2], 2, [⟨3, 0, 0⟩], []⟩ : EtatCqt).step1 4 (fun _ b k => b.getD k 0) [3, 4] = some ⟨[1, 2, 3, 4], 2, [⟨3, 0, 2⟩], [(0, 0, 1), (0, 1, 2)]⟩ := by
    rw [EtatCqt.step1, if_pos (by simp)]
    simp [frequences, a2]
  have d1 : (List.drop 1 [(9 : ℝ), 1, 2, 3, 4]).take (EtatCqt.cree 4 [3]).attendu = [1, 2] := by simp [EtatCqt.cree]
  rw [d1, s1, Option.bind_some]
  have d0 : (EtatCqt.cree 4 [3]).attendu = 2 := by simp [EtatCqt.cree]
  rw [d0, EtatCqt.boucleStep, dif_pos (by simp), if_pos (by simp)]
  have d2 : (List.drop (1 + 2) [(9 : ℝ), 1, 2, 3, 4]).take 2 = [3, 4] := by simp
  rw [d2, s2, Option.bind_some, EtatCqt.boucleStep, dif_neg (by simp), if_neg (by simp)]

end Verif.Fourier
