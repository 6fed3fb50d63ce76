import Verif.Telecom.DemodDecProps
import Verif.Telecom.FormesProps
import Verif.Signaux.Props

/-!
# C140, C141: demodulation without clock recovery
-/

namespace Verif.Telecom

open Filtre (Decoupable enchaine boucle)
open Complex (exp I)

/-! ### One symbol -/

theorem olut_zero : Signaux.olut 1024 0 = some 1 := by
  obtain ⟨y, h, -, h2⟩ := Signaux.C66_olut 1024 (by norm_num) 0
  rw [h, h2 0 (by simp)]
  simp

theorem tourne_some {C : Type} (c : ConfigDec C) (θ : ℝ) (x : ℂ) : ∃ y, c.tourne θ x = some y := by
  unfold ConfigDec.tourne
  split
  · obtain ⟨y, h, -⟩ := Signaux.C66_olut 1024 (by norm_num) (-θ)
    exact ⟨x * y, by rw [h]; rfl⟩
  · exact ⟨x, rfl⟩

theorem tourne_zero {C : Type} (c : ConfigDec C) (x : ℂ) : c.tourne 0 x = some x := by
  unfold ConfigDec.tourne
  split
  · rw [neg_zero, olut_zero]; simp
  · rfl

/-- Samples between two symbols. -/
theorem entre_symboles {C : Type} (c : ConfigDec C) (hc : c.horloge = false) (w : List ℂ) (s : EtatDec C) (h : s.cnt1 + w.length < c.osf) :
    boucle (EtatDec.pas c) s w = some ({ s with cnt := s.cnt + w.length, cnt1 := s.cnt1 + w.length }, List.replicate w.length none) := by
  induction w generalizing s with
  | nil => rfl
  | cons v w ih =>
    rw [List.length_cons] at h
    obtain ⟨y, hy⟩ := tourne_some c s.boucle.θ v
    have e : EtatDec.pas c s v = some ({ s with cnt := s.cnt + 1, cnt1 := s.cnt1 + 1 }, none) := by
      unfold EtatDec.pas
      rw [hy, Option.bind_some]
      simp only [EtatDec.echantillonne, hc, Bool.false_eq_true, if_false]
      rw [if_neg (by omega), Nat.mod_eq_of_lt (by omega), if_neg (by omega)]
      rfl
    simp only [boucle, e]
    rw [ih _ (by show s.cnt1 + 1 + w.length < c.osf; omega)]
    simp only [List.length_cons, List.replicate_succ]
    rw [show s.cnt + 1 + w.length = s.cnt + (w.length + 1) by omega, show s.cnt1 + 1 + w.length = s.cnt1 + (w.length + 1) by omega]

/-- The samples of a symbol: the first one is decided. -/
theorem un_symbole {C : Type} (c : ConfigDec C) (hc : c.horloge = false) (s : EtatDec C) (hs : s.cnt1 + 1 = c.osf) (v y : ℂ) (hy : c.tourne s.boucle.θ v = some y) (w : List ℂ) (hw : w.length < c.osf) (s' : EtatDec C) (o : Option ℤ)
    (hd : EtatDec.decide c { s with cnt := s.cnt + 1, cnt1 := 0 } (if c.cag then y * (s.gain : ℂ) else y) = some (s', o)) :
    boucle (EtatDec.pas c) s (v :: w) = some ({ s' with cnt := s.cnt + 1 + w.length, cnt1 := w.length }, o :: List.replicate w.length none) := by
  have e : EtatDec.pas c s v = some (s', o) := by
    unfold EtatDec.pas
    rw [hy, Option.bind_some]
    simp only [EtatDec.echantillonne, hc, Bool.false_eq_true, if_false]
    rw [if_neg (by omega), hs, Nat.mod_self, if_pos rfl, Option.bind_some]
    exact hd
  have k : s'.cnt = s.cnt + 1 ∧ s'.cnt1 = 0 := by
    unfold EtatDec.decide at hd
    obtain ⟨d, -, hd⟩ := Option.bind_eq_some_iff.1 hd
    split at hd
    · simp only [Option.some.injEq, Prod.mk.injEq] at hd
      rw [← hd.1]
      exact ⟨rfl, rfl⟩
    · obtain ⟨g, -, hd⟩ := Option.map_eq_some_iff.1 hd
      simp only [Prod.mk.injEq] at hd
      rw [← hd.1]
      exact ⟨rfl, rfl⟩
  simp only [boucle, e]
  rw [entre_symboles c hc w s' (by rw [k.2]; omega), k.1, k.2, Nat.zero_add]

/-! ### C140: the loops are off -/

/-- Samples `0, R, 2R, …` of a signal. -/
def symboleSur (R : ℕ) (x : List ℂ) : List ℂ := (List.range ((x.length + R - 1) / R)).map fun m : ℕ => x.getD (m * R) 0

theorem symboleSur_nil (R : ℕ) : symboleSur R [] = [] := by
  have : (0 + R - 1) / R = 0 := by
    rw [Nat.zero_add, Nat.div_eq_zero_iff]
    omega
  simp only [symboleSur, List.length_nil, this]
  rfl

theorem symboleSur_cons (R : ℕ) (hR : 0 < R) (v : ℂ) (x : List ℂ) : symboleSur R (v :: x) = v :: symboleSur R ((v :: x).drop R) := by
  unfold symboleSur
  have hl : ((v :: x).length + R - 1) / R = (((v :: x).drop R).length + R - 1) / R + 1 := by
    rw [List.length_drop, List.length_cons]
    by_cases h : R ≤ x.length + 1
    · rw [← Nat.add_div_right _ hR]
      congr 1
      omega
    · rw [show x.length + 1 - R = 0 by omega, Nat.zero_add, Nat.div_eq_of_lt (by omega : R - 1 < R), Nat.zero_add]
      exact Nat.div_eq_of_lt_le (by omega) (by omega)
  rw [hl, List.range_succ_eq_map, List.map_cons, List.map_map]
  congr 1
  · simp
  · refine List.map_congr_left fun m _ => ?_
    simp only [Function.comp_apply, List.getD_eq_getElem?_getD, List.getElem?_drop]
    rw [Nat.succ_mul, Nat.add_comm]

theorem boucle_sans_boucles (symbs : List (ℝ × ℝ)) (d : ℝ × ℝ → Option ℕ) (dec : ℂ → ℕ) (hd : ∀ z, d (z.re, z.im) = some (dec z) ∧ dec z < symbs.length) (c : ConfigDec Unit) (hctx : c.ctx = ctxSansMemoire symbs d)
    (hosf : 0 < c.osf) (hh : c.horloge = false) (hp : c.porteuse = false) (hg : c.cag = false) (n : ℕ) : ∀ (x : List ℂ), x.length ≤ n → ∀ (s : EtatDec Unit), s.cnt1 + 1 = c.osf →
    ∃ s' l, boucle (EtatDec.pas c) s x = some (s', l) ∧ l.reduceOption = (symboleSur c.osf x).map fun z => ((dec z : ℕ) : ℤ) := by
  induction n with
  | zero =>
    intro x hx s _
    obtain rfl : x = [] := List.length_eq_zero_iff.1 (by omega)
    exact ⟨s, [], rfl, by simp [symboleSur_nil]⟩
  | succ n ih =>
    intro x hx s hs
    cases x with
    | nil =>
      exact ⟨s, [], rfl, by simp [symboleSur_nil]⟩
    | cons v x =>
      rw [symboleSur_cons _ hosf]
      obtain ⟨hdv, hi⟩ := hd v
      have e : EtatDec.decide c { s with cnt := s.cnt + 1, cnt1 := 0 } (if c.cag then v * (s.gain : ℂ) else v) =
          some ({ s with cnt := s.cnt + 1, cnt1 := 0, lye := cplx symbs[dec v] }, some ((dec v : ℕ) : ℤ)) := by
        simp only [EtatDec.decide, hctx, ctxSansMemoire, hg, Bool.false_eq_true, if_false, hdv, Option.bind_some, List.getElem?_eq_getElem hi, Option.map_some, ConfigDec.majGain, hh, hp, false_and, and_false]
        rw [if_neg (by omega)]
      have hy : c.tourne s.boucle.θ v = some v := by simp [ConfigDec.tourne, hp]
      have hu := un_symbole c hh s hs v v hy (x.take (c.osf - 1)) (by simp; omega) _ _ e
      by_cases hl : c.osf ≤ x.length + 1
      · have hw : (x.take (c.osf - 1)).length = c.osf - 1 := by simp; omega
        rw [hw] at hu
        obtain ⟨s', l, h1, h2⟩ := ih ((v :: x).drop c.osf) (by rw [List.length_drop, List.length_cons]; rw [List.length_cons] at hx; omega)
          ({ ({ s with cnt := s.cnt + 1, cnt1 := 0, lye := cplx symbs[dec v] } : EtatDec Unit) with cnt := s.cnt + 1 + (c.osf - 1), cnt1 := c.osf - 1 }) (by show c.osf - 1 + 1 = c.osf; omega)
        refine ⟨s', (some ((dec v : ℕ) : ℤ) :: List.replicate (c.osf - 1) none) ++ l, ?_, ?_⟩
        · have hsplit : v :: x = (v :: x.take (c.osf - 1)) ++ (v :: x).drop c.osf := by
            conv_lhs => rw [← List.take_append_drop c.osf (v :: x)]
            congr 1
            rw [show c.osf = (c.osf - 1) + 1 by omega, List.take_succ_cons]
            rfl
          rw [hsplit, Filtre.boucle_append, hu]
          simp only
          rw [h1]
        · simp [List.reduceOption_append, h2, List.reduceOption_replicate_none]
      · have hw : x.take (c.osf - 1) = x := List.take_of_length_le (by omega)
        rw [hw] at hu
        refine ⟨_, _, hu, ?_⟩
        rw [List.drop_eq_nil_of_le (by simpa using by omega)]
        simp [symboleSur_nil, List.reduceOption_replicate_none]

/-- **C140 (decimation).** Without loops, the demodulator decides the samples `0, osf, 2 osf, …` of the whole signal (transposed by `fi`), and only those, whatever the cutting into blocks. -/
theorem C140_decimation (symbs : List (ℝ × ℝ)) (d : ℝ × ℝ → Option ℕ) (dec : ℂ → ℕ) (hd : ∀ z, d (z.re, z.im) = some (dec z) ∧ dec z < symbs.length) (c : ConfigDec Unit) (hctx : c.ctx = ctxSansMemoire symbs d)
    (hosf : 0 < c.osf) (hh : c.horloge = false) (hp : c.porteuse = false) (hg : c.cag = false) (hf : (c.forme.coefs c.osf).isSome) (blocs : List (List ℂ)) :
    ∃ s0 s, DemodDec.cree c = some s0 ∧ enchaine (DemodDec.step c) s0 blocs =
      some (s, symdemap ((symboleSur c.osf (if c.fi = 0 then blocs.flatten else transpose c.fi blocs.flatten)).map dec) c.k) := by
  obtain ⟨h, hf⟩ := Option.isSome_iff_exists.1 hf
  obtain ⟨s0, a, e0, e1⟩ := demod_flux c hosf h hf blocs
  have hr : recu c h blocs.flatten = if c.fi = 0 then blocs.flatten else transpose c.fi blocs.flatten := by simp [recu, hh]
  rw [hr] at e1
  obtain ⟨s', l, h1, h2⟩ := boucle_sans_boucles symbs d dec hd c hctx hosf hh hp hg _ _ le_rfl (etatInitial c) (by show c.osf - 1 + 1 = c.osf; omega)
  rw [h1, Option.map_some, h2, List.map_map] at e1
  exact ⟨s0, ⟨a, s'⟩, e0, e1⟩

/-! ### A stream of symbols, with loops -/

/-- `n` symbols of `osf` samples, the first of which is `v m`; `Rel m` is an invariant of the loops after `m` symbols. -/
theorem flux_symboles {C : Type} (c : ConfigDec C) (hh : c.horloge = false) (hosf : 0 < c.osf) (Rel : ℕ → EtatDec C → Prop) (v : ℕ → ℂ) (i : ℕ → ℤ)
    (n : ℕ) (hR : ∀ m, m < n → ∀ s, Rel m s → ∃ y s', c.tourne s.boucle.θ (v m) = some y ∧
      EtatDec.decide c { s with cnt := s.cnt + 1, cnt1 := 0 } (if c.cag then y * (s.gain : ℂ) else y) = some (s', some (i m)) ∧ Rel (m + 1) { s' with cnt := s.cnt + c.osf, cnt1 := c.osf - 1 })
    (s : EtatDec C) (h0 : Rel 0 s) (hs : s.cnt1 + 1 = c.osf) (x : List ℂ) (hx : x.length = n * c.osf) (hv : ∀ m, m < n → x[m * c.osf]? = some (v m)) :
    ∃ s' l, boucle (EtatDec.pas c) s x = some (s', l) ∧ l.reduceOption = (List.range n).map i ∧ Rel n s' ∧ s'.cnt1 + 1 = c.osf := by
  induction n generalizing x with
  | zero =>
    obtain rfl : x = [] := List.length_eq_zero_iff.1 (by simpa using hx)
    exact ⟨s, [], rfl, rfl, h0, hs⟩
  | succ n ih =>
    have hlt : n * c.osf < x.length := by rw [hx, Nat.succ_mul]; omega
    obtain ⟨s1, l1, e1, r1, R1, c1⟩ := ih (fun m hm => hR m (by omega)) (x.take (n * c.osf)) (by rw [List.length_take]; omega) (fun m hm => by
      rw [List.getElem?_take, if_pos (Nat.mul_lt_mul_of_pos_right hm hosf)]
      exact hv m (by omega))
    obtain ⟨y, s2, hy, hd, R2⟩ := hR n (by omega) s1 R1
    have hvn := hv n (by omega)
    have hdrop : x.drop (n * c.osf) = v n :: x.drop (n * c.osf + 1) := by
      rw [List.drop_eq_getElem_cons hlt]
      congr 1
      rw [List.getElem?_eq_getElem hlt] at hvn
      exact Option.some.inj hvn
    have hw : (x.drop (n * c.osf + 1)).length = c.osf - 1 := by rw [List.length_drop, hx, Nat.succ_mul]; omega
    have hu := un_symbole c hh s1 c1 (v n) y hy (x.drop (n * c.osf + 1)) (by rw [hw]; omega) s2 _ hd
    rw [hw] at hu
    rw [show s1.cnt + 1 + (c.osf - 1) = s1.cnt + c.osf by omega] at hu
    refine ⟨_, l1 ++ (some (i n) :: List.replicate (c.osf - 1) none), ?_, ?_, R2, by show c.osf - 1 + 1 = c.osf; omega⟩
    · rw [← List.take_append_drop (n * c.osf) x, Filtre.boucle_append, e1]
      simp only
      rw [hdrop, hu]
    · simp [List.reduceOption_append, r1, List.range_succ, List.reduceOption_replicate_none]

theorem decide_sans_memoire (symbs : List (ℝ × ℝ)) (d : ℝ × ℝ → Option ℕ) (c : ConfigDec Unit) (hctx : c.ctx = ctxSansMemoire symbs d) (s : EtatDec Unit) (y : ℂ) (i : ℕ) (hi : i < symbs.length) (hd : d (y.re, y.im) = some i) (g : ℝ)
    (hg : c.majGain s.gain y (cplx symbs[i]) = some g) :
    EtatDec.decide c s y = some ({ s with gain := g, lye := cplx symbs[i], hor := if c.horloge ∧ 2 ≤ s.cnt then s.hor.maj c s.lye (cplx symbs[i]) else s.hor, boucle := if 2 ≤ s.cnt ∧ c.porteuse then lf2 c.BL c.η s.boucle (Complex.arg (y * (starRingEnd ℂ) (cplx symbs[i]))) else s.boucle }, some (i : ℤ)) := by
  simp only [EtatDec.decide, hctx, ctxSansMemoire, hd, Option.bind_some, List.getElem?_eq_getElem hi, Option.map_some]
  rw [if_neg (by omega), hg]
  rfl

theorem cplx_re_im (z : ℂ) : cplx (z.re, z.im) = z := rfl

theorem dist2_norme (a b : ℝ × ℝ) : dist2 a b = ‖cplx a - cplx b‖ ^ 2 := by
  rw [Complex.sq_norm, Complex.normSq_apply]
  rfl

/-- The bits of a list of symbol indices. -/
theorem bits_indices (symbs : List (ℝ × ℝ)) (k : ℕ) (hk : 0 < k) (hM : 2 ^ k ≤ symbs.length) (x : List Bool) : ∃ s : List ℕ, genereSymboles symbs k x = some (s.map fun i => symbs.getD i (0, 0)) ∧ (∀ v ∈ s, v < symbs.length) ∧
    symdemap s k = x ++ List.replicate (manque x.length k) false := by
  obtain ⟨s, e, hdm, hl, hlt, _⟩ := C07_aller_retour x k hk
  refine ⟨s, ?_, fun v hv => lt_of_lt_of_le (hlt v hv) hM, hdm⟩
  simp only [genereSymboles, e]
  have : ∀ l : List ℕ, (∀ v ∈ l, v < symbs.length) → l.mapM (fun i => symbs[i]?) = some (l.map fun i => symbs.getD i (0, 0)) := by
    intro l
    induction l with
    | nil => intro _; rfl
    | cons a l ih =>
      intro h
      have ha := h a (by simp)
      rw [List.mapM_cons, ih (fun v hv => h v (by simp [hv])), List.getElem?_eq_getElem ha, List.map_cons, List.getD_eq_getElem _ _ ha]
      rfl
  exact this s fun v hv => lt_of_lt_of_le (hlt v hv) hM

/-- **C140 (round trip with noise).** Any bits modulated with NRZ pulses, sent at the intermediate frequency `fi` and received with a noise which, at the start of each symbol, is shorter than half the minimal distance `√d` of the
constellation (for a decision with that margin) come back exactly from the demodulator without loops, whatever the two cuttings. -/
theorem C140_aller_retour (symbs : List (ℝ × ℝ)) (k : ℕ) (hk : 0 < k) (hM : 2 ^ k ≤ symbs.length) (dec : ℝ × ℝ → Option ℕ) (d : ℝ) (hdec : ∀ i (h : i < symbs.length) p, 4 * dist2 p symbs[i] < d → dec p = some i)
    (c : ConfigDec Unit) (hctx : c.ctx = ctxSansMemoire symbs dec) (hck : c.k = k) (hosf : 0 < c.osf) (hh : c.horloge = false) (hp : c.porteuse = false) (hg : c.cag = false) (hf : c.forme = .nrz)
    (bits : List (List Bool)) (hb : ∀ b ∈ bits, b.length % k = 0) :
    ∃ m0 m y s0, Modulateur.cree .nrz c.osf = some m0 ∧ enchaine (Modulateur.stepBits symbs k none) m0 bits = some (m, y) ∧ DemodDec.cree c = some s0 ∧
      ∀ blocs : List (List ℂ), blocs.flatten.length = y.length →
        (∀ t, c.osf ∣ t → t < y.length → 4 * ‖blocs.flatten.getD t 0 - exp ((2 * Real.pi * (t * c.fi) : ℝ) * I) * y.getD t 0‖ ^ 2 < d) →
        ∃ s, enchaine (DemodDec.step c) s0 blocs = some (s, bits.flatten) := by
  obtain ⟨sy, m0, m, e1, e2, e3⟩ := C97_nrz symbs k hk hM c.osf hosf bits hb
  obtain ⟨idx, f1, f2, f3⟩ := bits_indices symbs k hk hM bits.flatten
  rw [f1] at e1
  obtain rfl := Option.some.inj e1
  have hmq : manque bits.flatten.length k = 0 := by
    have : bits.flatten.length % k = 0 := by
      clear e3 f1 f3
      induction bits with
      | nil => simp
      | cons b l ih =>
        rw [List.flatten_cons, List.length_append, Nat.add_mod, hb b (by simp), ih (fun b hb' => hb b (by simp [hb']))]
        simp
    rw [manque, this, Nat.sub_zero, Nat.mod_self]
  rw [hmq, List.replicate_zero, List.append_nil] at f3
  obtain ⟨g1, g2⟩ := flatMap_getElem c.osf (fun p : ℝ × ℝ => List.replicate c.osf (cplx p)) (fun a => by simp) (idx.map fun i => symbs.getD i (0, 0))
  have hcf : c.forme.coefs c.osf = some (if c.osf = 1 then [1] else List.replicate c.osf (1 / (c.osf : ℝ))) := by
    rw [hf]
    unfold MiseEnForme.coefs
    rw [if_neg hosf.ne']
    split <;> rfl
  obtain ⟨s0, _, e0, -⟩ := cree_forme c hosf _ hcf
  refine ⟨m0, m, _, s0, e2, e3, e0, fun blocs hlen hbr => ?_⟩
  obtain ⟨s0', a, e0', e4⟩ := demod_flux c hosf _ hcf blocs
  rw [e0] at e0'
  obtain rfl := Option.some.inj e0'
  have hr : recu c (if c.osf = 1 then [1] else List.replicate c.osf (1 / (c.osf : ℝ))) blocs.flatten = if c.fi = 0 then blocs.flatten else transpose c.fi blocs.flatten := by simp [recu, hh]
  rw [hr] at e4
  rw [g1, List.length_map] at hlen hbr
  have hrec : ∀ t, t < idx.length * c.osf → (if c.fi = 0 then blocs.flatten else transpose c.fi blocs.flatten).getD t 0 = blocs.flatten.getD t 0 * exp (-(2 * Real.pi * (t * c.fi) : ℝ) * I) := by
    intro t ht
    split
    · rename_i h0; rw [h0]; simp
    · exact transpose_get _ _ _ (by omega)
  have hlr : (if c.fi = 0 then blocs.flatten else transpose c.fi blocs.flatten).length = idx.length * c.osf := by
    split
    · exact hlen
    · rw [transpose_long]; exact hlen
  generalize (if c.fi = 0 then blocs.flatten else transpose c.fi blocs.flatten) = r at e4 hrec hlr
  obtain ⟨s', l, h1, h2, -⟩ := flux_symboles c hh hosf (fun _ _ => True) (fun m => r.getD (m * c.osf) 0) (fun m => ((idx.getD m 0 : ℕ) : ℤ)) idx.length (by
      intro m hm s _
      have hi : idx[m] < symbs.length := f2 _ (List.getElem_mem hm)
      have ht : m * c.osf < idx.length * c.osf := Nat.mul_lt_mul_of_pos_right hm hosf
      have hy := g2 m 0 (by rw [List.length_map]; exact hm) hosf
      rw [Nat.add_zero, List.getElem?_replicate, if_pos hosf, List.getElem_map] at hy
      have hb2 := hbr (m * c.osf) (Dvd.intro_left m rfl) ht
      have hy2 : (List.flatMap (fun p : ℝ × ℝ => List.replicate c.osf (cplx p)) (idx.map fun i => symbs.getD i (0, 0))).getD (m * c.osf) 0 = cplx symbs[idx[m]] := by
        rw [List.getD_eq_getElem?_getD, hy, Option.getD_some, List.getD_eq_getElem _ _ hi]
      rw [hy2] at hb2
      have hv := hrec _ ht
      have hde : dec ((r.getD (m * c.osf) 0).re, (r.getD (m * c.osf) 0).im) = some idx[m] := by
        refine hdec _ hi _ ?_
        rw [dist2_norme, cplx_re_im, hv]
        refine lt_of_eq_of_lt ?_ hb2
        have hu : ‖exp (-(2 * Real.pi * ((m * c.osf : ℕ) * c.fi) : ℝ) * I)‖ = 1 := by
          rw [show -((2 * Real.pi * ((m * c.osf : ℕ) * c.fi) : ℝ) : ℂ) * I = ((-(2 * Real.pi * ((m * c.osf : ℕ) * c.fi)) : ℝ) : ℂ) * I by push_cast; ring]
          exact Complex.norm_exp_ofReal_mul_I _
        have hx : exp ((2 * Real.pi * ((m * c.osf : ℕ) * c.fi) : ℝ) * I) * exp (-(2 * Real.pi * ((m * c.osf : ℕ) * c.fi) : ℝ) * I) = 1 := by
          rw [← Complex.exp_add]; simp
        have hz : blocs.flatten.getD (m * c.osf) 0 * exp (-(2 * Real.pi * ((m * c.osf : ℕ) * c.fi) : ℝ) * I) - cplx symbs[idx[m]] =
            (blocs.flatten.getD (m * c.osf) 0 - exp ((2 * Real.pi * ((m * c.osf : ℕ) * c.fi) : ℝ) * I) * cplx symbs[idx[m]]) * exp (-(2 * Real.pi * ((m * c.osf : ℕ) * c.fi) : ℝ) * I) := by
          linear_combination cplx symbs[idx[m]] * hx
        rw [hz, norm_mul, hu, mul_one]
      refine ⟨r.getD (m * c.osf) 0, { s with cnt := s.cnt + 1, cnt1 := 0, lye := cplx symbs[idx[m]] }, by simp [ConfigDec.tourne, hp], ?_, trivial⟩
      · simp only [hg, Bool.false_eq_true, if_false]
        rw [decide_sans_memoire symbs dec c hctx _ _ _ hi hde s.gain (by simp [ConfigDec.majGain, hg]), List.getD_eq_getElem _ _ hm]
        simp only [hh, hp, Bool.false_eq_true, false_and, and_false, if_false]) (etatInitial c) trivial (by show c.osf - 1 + 1 = c.osf; omega) r hlr (fun m hm => by
      have ht : m * c.osf < r.length := by rw [hlr]; exact Nat.mul_lt_mul_of_pos_right hm hosf
      rw [List.getD_eq_getElem _ _ ht, List.getElem?_eq_getElem ht])
  refine ⟨⟨a, s'⟩, ?_⟩
  rw [e4, h1, Option.map_some, h2, hck]
  rw [← f3]
  congr 3
  refine List.ext_getElem (by simp) fun n hn1 hn2 => ?_
  simp only [List.getElem_map, List.getElem_range, Int.toNat_natCast]
  rw [List.getD_eq_getElem]

end Verif.Telecom
