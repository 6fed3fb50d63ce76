import Verif.Telecom.DemodDecSymb

/-!
# C141, C142: carrier recovery and automatic gain control of the decision-directed demodulator
-/

namespace Verif.Telecom

open Filtre (Decoupable enchaine boucle)
open Complex (exp I)

/-- The loops are at rest: no phase correction, unit gain. -/
def Repos {C : Type} (s : EtatDec C) : Prop := s.boucle = ⟨0, 0, 0⟩ ∧ s.gain = 1

theorem arg_carre (z : ℂ) : Complex.arg (z * (starRingEnd ℂ) z) = 0 := by
  rw [Complex.mul_conj]
  exact Complex.arg_ofReal_of_nonneg (Complex.normSq_nonneg z)

/-- A noiseless symbol leaves the loops at rest. -/
theorem decide_repos (symbs : List (ℝ × ℝ)) (dec : ℝ × ℝ → Option ℕ) (c : ConfigDec Unit) (hctx : c.ctx = ctxSansMemoire symbs dec) (hh : c.horloge = false) (i : ℕ) (hi : i < symbs.length) (hd : dec symbs[i] = some i)
    (hn : c.cag = true → cplx symbs[i] ≠ 0) (s : EtatDec Unit) (hs : Repos s) :
    ∃ s', EtatDec.decide c s (cplx symbs[i]) = some (s', some (i : ℤ)) ∧ Repos s' ∧ s'.cnt1 = s.cnt1 ∧ s'.cnt = s.cnt := by
  have hg : c.majGain s.gain (cplx symbs[i]) (cplx symbs[i]) = some 1 := by
    unfold ConfigDec.majGain
    rw [hs.2]
    split
    · rename_i h
      have hz := hn h
      rw [if_neg (by simp [hz]), div_self (norm_ne_zero_iff.2 hz)]
      congr 1
      ring
    · rfl
  refine ⟨_, decide_sans_memoire symbs dec c hctx s (cplx symbs[i]) i hi hd 1 hg, ⟨?_, rfl⟩, rfl, rfl⟩
  simp only
  split
  · rw [hs.1, arg_carre]; simp [lf2]
  · exact hs.1

/-- **C141 (loops at rest).** Any bits modulated with NRZ pulses and received without noise at the intermediate frequency `fi` come back exactly from the demodulator with its carrier recovery and its automatic gain control (if the
constellation has no null point), whatever their settings and the two cuttings: on its own signal, the loops do not move. -/
theorem C141_repos (symbs : List (ℝ × ℝ)) (k : ℕ) (hk : 0 < k) (hM : 2 ^ k ≤ symbs.length) (dec : ℝ × ℝ → Option ℕ) (hdec : ∀ i (h : i < symbs.length), dec symbs[i] = some i)
    (c : ConfigDec Unit) (hctx : c.ctx = ctxSansMemoire symbs dec) (hck : c.k = k) (hosf : 0 < c.osf) (hh : c.horloge = false) (hn : c.cag = true → ∀ p ∈ symbs, cplx p ≠ 0) (hf : c.forme = .nrz)
    (bits : List (List Bool)) (hb : ∀ b ∈ bits, b.length % k = 0) :
    ∃ m0 m y s0, Modulateur.cree .nrz c.osf = some m0 ∧ enchaine (Modulateur.stepBits symbs k none) m0 bits = some (m, y) ∧ DemodDec.cree c = some s0 ∧
      ∀ blocs : List (List ℂ), blocs.flatten.length = y.length →
        (∀ t, t < y.length → blocs.flatten.getD t 0 = exp ((2 * Real.pi * (t * c.fi) : ℝ) * I) * y.getD t 0) →
        ∃ s, enchaine (DemodDec.step c) s0 blocs = some (s, bits.flatten) ∧ s.etat.boucle.θ = 0 ∧ s.etat.gain = 1 := by
  obtain ⟨sy, m0, m, e1, e2, e3⟩ := C97_nrz symbs k hk hM c.osf hosf bits hb
  obtain ⟨idx, f1, f2, f3⟩ := bits_indices symbs k hk hM bits.flatten
  rw [f1] at e1
  obtain rfl := Option.some.inj e1
  have hmq : manque bits.flatten.length k = 0 := by
    have : bits.flatten.length % k = 0 := by
      clear e3 f1 f3
      induction bits with
      | nil => simp
      | cons b l ih =>
        rw [List.flatten_cons, List.length_append, Nat.add_mod, hb b (by simp), ih (fun b hb' => hb b (by simp [hb']))]
        simp
    rw [manque, this, Nat.sub_zero, Nat.mod_self]
  rw [hmq, List.replicate_zero, List.append_nil] at f3
  obtain ⟨g1, g2⟩ := flatMap_getElem c.osf (fun p : ℝ × ℝ => List.replicate c.osf (cplx p)) (fun a => by simp) (idx.map fun i => symbs.getD i (0, 0))
  have hcf : c.forme.coefs c.osf = some (if c.osf = 1 then [1] else List.replicate c.osf (1 / (c.osf : ℝ))) := by
    rw [hf]
    unfold MiseEnForme.coefs
    rw [if_neg hosf.ne']
    split <;> rfl
  obtain ⟨s0, _, e0, -⟩ := cree_forme c hosf _ hcf
  refine ⟨m0, m, _, s0, e2, e3, e0, fun blocs hlen hbr => ?_⟩
  obtain ⟨s0', a, e0', e4⟩ := demod_flux c hosf _ hcf blocs
  rw [e0] at e0'
  obtain rfl := Option.some.inj e0'
  have hr : recu c (if c.osf = 1 then [1] else List.replicate c.osf (1 / (c.osf : ℝ))) blocs.flatten = if c.fi = 0 then blocs.flatten else transpose c.fi blocs.flatten := by simp [recu, hh]
  rw [hr] at e4
  rw [g1, List.length_map] at hlen hbr
  have hrec : ∀ t, t < idx.length * c.osf → (if c.fi = 0 then blocs.flatten else transpose c.fi blocs.flatten).getD t 0 = blocs.flatten.getD t 0 * exp (-(2 * Real.pi * (t * c.fi) : ℝ) * I) := by
    intro t ht
    split
    · rename_i h0; rw [h0]; simp
    · exact transpose_get _ _ _ (by omega)
  have hlr : (if c.fi = 0 then blocs.flatten else transpose c.fi blocs.flatten).length = idx.length * c.osf := by
    split
    · exact hlen
    · rw [transpose_long]; exact hlen
  generalize (if c.fi = 0 then blocs.flatten else transpose c.fi blocs.flatten) = r at e4 hrec hlr
  obtain ⟨s', l, h1, h2, h3, -⟩ := flux_symboles c hh hosf (fun _ s => Repos s) (fun m => r.getD (m * c.osf) 0) (fun m => ((idx.getD m 0 : ℕ) : ℤ)) idx.length (by
      intro m hm s hs
      have hi : idx[m] < symbs.length := f2 _ (List.getElem_mem hm)
      have ht : m * c.osf < idx.length * c.osf := Nat.mul_lt_mul_of_pos_right hm hosf
      have hy := g2 m 0 (by rw [List.length_map]; exact hm) hosf
      rw [Nat.add_zero, List.getElem?_replicate, if_pos hosf, List.getElem_map] at hy
      have hb2 := hbr (m * c.osf) ht
      have hy2 : (List.flatMap (fun p : ℝ × ℝ => List.replicate c.osf (cplx p)) (idx.map fun i => symbs.getD i (0, 0))).getD (m * c.osf) 0 = cplx symbs[idx[m]] := by
        rw [List.getD_eq_getElem?_getD, hy, Option.getD_some, List.getD_eq_getElem _ _ hi]
      rw [hy2] at hb2
      have hv : r.getD (m * c.osf) 0 = cplx symbs[idx[m]] := by
        rw [hrec _ ht, hb2, mul_right_comm, ← Complex.exp_add]
        simp
      obtain ⟨s', k1, k2, k3, k4⟩ := decide_repos symbs dec c hctx hh idx[m] hi (hdec _ hi) (fun h => hn h _ (List.getElem_mem hi)) { s with cnt := s.cnt + 1, cnt1 := 0 } hs
      refine ⟨r.getD (m * c.osf) 0, s', ?_, ?_, k2⟩
      · rw [hs.1]; exact tourne_zero _ _
      · have hu : (if c.cag then r.getD (m * c.osf) 0 * (s.gain : ℂ) else r.getD (m * c.osf) 0) = cplx symbs[idx[m]] := by
          rw [hs.2, Complex.ofReal_one, mul_one, ite_self, hv]
        rw [hu, k1, List.getD_eq_getElem _ _ hm]) (etatInitial c) ⟨rfl, rfl⟩ (by show c.osf - 1 + 1 = c.osf; omega) r hlr (fun m hm => by
      have ht : m * c.osf < r.length := by rw [hlr]; exact Nat.mul_lt_mul_of_pos_right hm hosf
      rw [List.getD_eq_getElem _ _ ht, List.getElem?_eq_getElem ht])
  refine ⟨⟨a, s'⟩, ?_, by rw [show (⟨a, s'⟩ : DemodDec Unit).etat = s' from rfl, h3.1], h3.2⟩
  rw [e4, h1, Option.map_some, h2, hck]
  rw [← f3]
  congr 3
  refine List.ext_getElem (by simp) fun n hn1 hn2 => ?_
  simp only [List.getElem_map, List.getElem_range, Int.toNat_natCast]
  rw [List.getD_eq_getElem]

end Verif.Telecom
