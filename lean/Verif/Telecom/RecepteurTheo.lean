import Verif.Telecom.RecepteurDecoupe
import Verif.Signaux.Props

/-!
# Receiver: main theorems on the frames delivered
-/

namespace Verif.Telecom

/-! ### Soundness, order and reported positions -/

/-- Specification: number of samples of whole blocks processed, during the call that completes the block `b`, before this block; `n` samples were received before the calls `xs`. -/
def decalageRec (Ne : ℕ) : ℕ → List (List ℂ) → ℕ → ℕ
  | _, [], _ => 0
  | n, x :: xs, b => if b < (n + x.length) / Ne then (b - n / Ne) * Ne else decalageRec Ne (n + x.length) xs b

theorem paquets_longueur (N : ℕ) (x : List ℂ) : (Tampon.paquets N x).length = x.length / N := by
  unfold Tampon.paquets
  simp

theorem paquets_taille (N : ℕ) (x : List ℂ) : ∀ q ∈ Tampon.paquets N x, q.length = N := by
  intro q hq
  simp only [Tampon.paquets, List.mem_map, List.mem_range] at hq
  obtain ⟨k, hk, rfl⟩ := hq
  have h1 : (k + 1) * N ≤ x.length / N * N := Nat.mul_le_mul_right N hk
  have h4 := Nat.div_mul_le_self x.length N
  rw [Nat.add_mul, Nat.one_mul] at h1
  simp only [List.length_take, List.length_drop]
  omega

theorem paquets_prefixe (N : ℕ) (hN : 0 < N) (x : List ℂ) : (Tampon.paquets N x).flatten <+: x := by
  obtain ⟨s, p, e, -, h⟩ := Tampon.C17_sans_perte (0 : ℂ) N hN [x]
  obtain ⟨s', e', -⟩ := Tampon.C17_paquets (0 : ℂ) N hN [x]
  rw [e] at e'
  simp only [Option.some.injEq, Prod.mk.injEq, List.flatten_singleton] at e' h
  rw [← e'.2]
  exact ⟨_, h⟩

theorem livree_prefixe {D C : Type} (c : ConfigRec D C) (X Y : List ℂ) (h : X <+: Y) (b : ℕ) (d : Fourier.Detection) (t : TrameRec) (ht : Livree c X b d t) : Livree c Y b d t := by
  obtain ⟨z, rfl⟩ := h
  exact livree_suite c X z b d t ht

theorem fluxDet_append {D : Type} (det : D → List ℂ → Option (D × List Fourier.Detection)) (l l' : List (List ℂ)) : ∀ (s s1 s2 : D) (a b : List (List Fourier.Detection)), fluxDet det s l = some (s1, a) → fluxDet det s1 l' = some (s2, b) → fluxDet det s (l ++ l') = some (s2, a ++ b) := by
  induction l with
  | nil =>
    intro s s1 s2 a b h1 h2
    simp only [fluxDet, Option.some.injEq, Prod.mk.injEq] at h1
    obtain ⟨rfl, rfl⟩ := h1
    exact h2
  | cons x l ih =>
    intro s s1 s2 a b h1 h2
    rw [List.cons_append]
    unfold fluxDet at h1 ⊢
    obtain ⟨r, h3, h1⟩ := Option.bind_eq_some_iff.1 h1
    obtain ⟨q, h4, h1⟩ := Option.map_eq_some_iff.1 h1
    simp only [Prod.mk.injEq] at h1
    obtain ⟨rfl, rfl⟩ := h1
    rw [h3, Option.bind_some, ih r.1 q.1 s2 q.2 b h4 h2]
    rfl

theorem flux_saine {D C : Type} (c : ConfigRec D C) (hc : ValideRec c) (ofs : ℕ → ℕ) (xs : List (List ℂ)) : ∀ (s s' : RecepteurTrames D C) (h : List ℂ) (T : List TrameRec) (dets : List (List Fourier.Detection)) (l : List (List TrameRec)), TamponRec c.Ne h s →
    InvRec c (Tampon.paquets c.Ne h) s.etat → s.etat.trames = [] → dets.length = h.length / c.Ne → (∀ b : ℕ, h.length / c.Ne ≤ b → ofs b = decalageRec c.Ne h.length xs b) →
    SaineRec c ofs (Tampon.paquets c.Ne h).flatten (listeDet dets) { s.etat with trames := T } → s.flux c xs = some (s', l) →
    ∃ p ds, Tampon.paquets c.Ne (h ++ xs.flatten) = Tampon.paquets c.Ne h ++ p ∧ fluxDet c.det s.etat.det p = some (s'.etat.det, ds) ∧ SaineRec c ofs (Tampon.paquets c.Ne (h ++ xs.flatten)).flatten (listeDet (dets ++ ds)) { s'.etat with trames := T ++ l.flatten } := by
  induction xs with
  | nil =>
    intro s s' h T dets l h1 h2 h3 h4 h5 h6 h7
    simp only [RecepteurTrames.flux, Option.some.injEq, Prod.mk.injEq] at h7
    obtain ⟨rfl, rfl⟩ := h7
    exact ⟨[], [], by simp, rfl, by simpa using h6⟩
  | cons x xs ih =>
    intro s s' h T dets l h1 h2 h3 h4 h5 h6 h7
    obtain ⟨p, t, v, e1, e2, e3⟩ := recepteur_step c hc.Ne s h x h1
    unfold RecepteurTrames.flux at h7
    rw [e3] at h7
    obtain ⟨r, h8, h9⟩ := Option.bind_eq_some_iff.1 h7
    obtain ⟨e, h10, rfl⟩ := Option.map_eq_some_iff.1 h8
    obtain ⟨q, h11, h12⟩ := Option.map_eq_some_iff.1 h9
    simp only [Prod.mk.injEq] at h12
    obtain ⟨rfl, rfl⟩ := h12
    have hlen : (h.length + x.length) / c.Ne = h.length / c.Ne + p.length := by
      have := congrArg List.length e1
      rwa [List.length_append, paquets_longueur, paquets_longueur, List.length_append] at this
    have hav := blocs_avant c T p { s.etat with cnt := 0 }
    rw [h10, Option.map_some] at hav
    have hn : ∀ j : ℕ, j < p.length → 0 + j * c.Ne = ofs ((Tampon.paquets c.Ne h).length + j) := by
      intro j hj
      rw [paquets_longueur, h5 _ (by omega)]
      unfold decalageRec
      rw [if_pos (by omega), Nat.add_sub_cancel_left, Nat.zero_add]
    obtain ⟨ds, k1, k2, k3, -, k4, k5⟩ := blocs_suite c hc ofs p (Tampon.paquets c.Ne h) ({ s.etat with cnt := 0, trames := T ++ s.etat.trames } : EtatRec D C) _ dets ⟨h2.taille, h2.last, h2.calme⟩ hn (by rw [paquets_longueur]; exact h4)
      (by simp only [h3, List.append_nil]; exact h6) hav
    simp only at k1
    rw [← e1] at k3 k5
    obtain ⟨p', ds', j1, j2, j3⟩ := ih ⟨t, v, { e with trames := [] }⟩ q.1 (h ++ x) (T ++ e.trames) (dets ++ ds) q.2 (e2 _) ⟨k3.taille, k3.last, k3.calme⟩ rfl (by rw [List.length_append, List.length_append, h4, k2, hlen])
      (fun b hb => by
        rw [List.length_append] at hb ⊢
        rw [h5 b (by omega)]
        conv_lhs => unfold decalageRec
        rw [if_neg (by omega)]) k5 h11
    simp only [List.flatten_cons, List.append_assoc] at j1 j2 j3 ⊢
    refine ⟨p ++ p', ds ++ ds', ?_, fluxDet_append _ _ _ _ _ _ _ _ k1 j2, j3⟩
    rw [j1, e1, List.append_assoc]

theorem inv_neuf {D C : Type} (c : ConfigRec D C) (hc : ValideRec c) (d0 : D) (s : RecepteurTrames D C) (h : RecepteurTrames.cree c d0 = some s) : InvRec c [] s.etat ∧ ∀ ofs, SaineRec c ofs [] [] s.etat := by
  obtain ⟨-, h2, h3, h4, h5, h6, h7⟩ := recepteur_neuf c hc.Ne d0 s h
  rw [calme_cree c.demod hc.demod] at h7
  refine ⟨⟨fun x hx => (by cases hx), by rw [h5]; simp, ?_⟩, fun ofs => ⟨[], [], Or.inl ⟨rfl, h3⟩, by simp, by rw [h2]; exact List.Forall₂.nil⟩⟩
  rw [← Option.some.inj h7]
  exact calme_neuf _ _

/-- A new receiver exists. -/
theorem recepteur_existe {D C : Type} (c : ConfigRec D C) (hc : ValideRec c) (d0 : D) : ∃ s, RecepteurTrames.cree c d0 = some s := by
  unfold RecepteurTrames.cree
  rw [calme_cree c.demod hc.demod]
  exact ⟨_, rfl⟩

/-- **C146 (the frames delivered are those of the detections).**  For every valid configuration of a receiver, every detector, and every signal, cut in any way into calls: when the calls succeed, the frames delivered correspond, in the same order and at most one for each, to
detections that the detector reports on the successive blocks of `Ne` samples of the signal. The bits of each frame are exactly the `nbits` first bits of the demodulation, in one go, of the samples of the signal that follow the header
(correction of the gain and of the phase measured on the header, interpolation of the fractional part of its position, matched filter, one sample per symbol), even when the frame covers several blocks or several calls; its raw samples `x` and its
symbols `x1` are the first ones; and its detection is the one of the header, whose position is counted from the beginning of the first block completed by the call in which the header was detected. -/
theorem C146_trames {D C : Type} (c : ConfigRec D C) (hc : ValideRec c) (d0 : D) (s s' : RecepteurTrames D C) (h : RecepteurTrames.cree c d0 = some s) (xs : List (List ℂ)) (l : List (List TrameRec)) (hf : s.flux c xs = some (s', l)) :
    ∃ d1 dets L, fluxDet c.det d0 (Tampon.paquets c.Ne xs.flatten) = some (d1, dets) ∧ L.Sublist (listeDet dets) ∧
      List.Forall₂ (fun (p : ℕ × Fourier.Detection) (t : TrameRec) => Livree c xs.flatten p.1 p.2 t ∧ t.bs.length = c.nbits ∧ t.det = c.reporte (decalageRec c.Ne 0 xs p.1) p.2) L l.flatten := by
  obtain ⟨h1, h2, h3, h4, h5, h6, h7⟩ := recepteur_neuf c hc.Ne d0 s h
  obtain ⟨i1, i2⟩ := inv_neuf c hc d0 s h
  have hp0 : Tampon.paquets c.Ne ([] : List ℂ) = [] := Tampon.paquets_court _ _ (by simpa using hc.Ne)
  obtain ⟨p, ds, k1, k2, k3⟩ := flux_saine c hc (decalageRec c.Ne 0 xs) xs s s' [] [] [] l h1 (by rw [hp0]; exact i1) h2 (by simp) (fun b _ => by simp) (by
    rw [hp0]
    obtain ⟨L, P, a, b, c'⟩ := i2 (decalageRec c.Ne 0 xs)
    rw [h2] at c'
    exact ⟨L, P, a, b, c'⟩) hf
  rw [hp0, List.nil_append, List.nil_append] at k1
  rw [List.nil_append, List.nil_append, List.nil_append] at k3
  rw [h4, ← k1] at k2
  obtain ⟨L, P, -, m1, m2⟩ := k3
  refine ⟨_, ds, L, k2, (List.sublist_append_left L P).trans m1, m2.imp fun p t ht => ⟨livree_prefixe c _ _ (paquets_prefixe _ hc.Ne _) _ _ _ ht.1, ?_, ht.2⟩⟩
  obtain ⟨z, bits, y, -, -, a1, a2, -⟩ := ht.1
  rw [a2, List.length_take]
  omega

/-- Deduction for the calls of what is known for the blocks. -/
theorem livree_transfert {D C : Type} (c : ConfigRec D C) (X : List ℂ) (b : ℕ) (d : Fourier.Detection) (T T' : List TrameRec) (h : T.map TrameRec.sansPosition = T'.map TrameRec.sansPosition) (t : TrameRec) (ht : t ∈ T') (hl : Livree c X b d t) : ∃ t' ∈ T, Livree c X b d t' := by
  have h1 : t.sansPosition ∈ T.map TrameRec.sansPosition := by rw [h]; exact List.mem_map_of_mem ht
  obtain ⟨t', h2, h3⟩ := List.mem_map.1 h1
  refine ⟨t', h2, ?_⟩
  obtain ⟨z, bits, y, a1, a2, a3, a4, a5, a6⟩ := hl
  have e1 : t'.bs = t.bs := congrArg (f := fun u : TrameRec => u.bs) (a₁ := t'.sansPosition) (a₂ := t.sansPosition) h3
  have e2 : t'.x = t.x := congrArg (f := fun u : TrameRec => u.x) (a₁ := t'.sansPosition) (a₂ := t.sansPosition) h3
  have e3 : t'.x1 = t.x1 := congrArg (f := fun u : TrameRec => u.x1) (a₁ := t'.sansPosition) (a₂ := t.sansPosition) h3
  exact ⟨z, bits, y, a1, a2, a3, by rw [e1, a4], by rw [e2, a5], by rw [e3, a6]⟩

theorem fluxDet_coupe {D : Type} (det : D → List ℂ → Option (D × List Fourier.Detection)) (l l' : List (List ℂ)) : ∀ (s s2 : D) (ds : List (List Fourier.Detection)), fluxDet det s (l ++ l') = some (s2, ds) →
    ∃ s1 a b, fluxDet det s l = some (s1, a) ∧ fluxDet det s1 l' = some (s2, b) ∧ ds = a ++ b ∧ a.length = l.length := by
  induction l with
  | nil => intro s s2 ds h; exact ⟨s, [], ds, rfl, h, rfl, rfl⟩
  | cons x l ih =>
    intro s s2 ds h
    rw [List.cons_append] at h
    unfold fluxDet at h
    obtain ⟨r, h3, h⟩ := Option.bind_eq_some_iff.1 h
    obtain ⟨q, h4, h⟩ := Option.map_eq_some_iff.1 h
    simp only [Prod.mk.injEq] at h
    obtain ⟨rfl, rfl⟩ := h
    obtain ⟨s1, a, b, k1, k2, k3, k4⟩ := ih _ _ _ h4
    refine ⟨s1, r.2 :: a, b, ?_, k2, by rw [k3]; rfl, by simp [k4]⟩
    unfold fluxDet
    rw [h3, Option.bind_some, k1]
    rfl

/-- **C146 (no frame is lost between two headers).**  Same hypotheses: if `d` is the last detection of the block `b`, if the blocks `b + 1`, …, `n - 2` have no detection, and if the `n` first blocks contain enough samples (those of the data, four symbols and the delay of the
filters), then the frame of `d` is delivered. -/
theorem C146_complet {D C : Type} (c : ConfigRec D C) (hc : ValideRec c) (d0 d1 : D) (s s' : RecepteurTrames D C) (h : RecepteurTrames.cree c d0 = some s) (xs : List (List ℂ)) (l : List (List TrameRec)) (hf : s.flux c xs = some (s', l)) (dets : List (List Fourier.Detection))
    (hd : fluxDet c.det d0 (Tampon.paquets c.Ne xs.flatten) = some (d1, dets)) (b n : ℕ) (hbn : b < n) (hn : n ≤ xs.flatten.length / c.Ne) (d : Fourier.Detection) (hdb : (dets.getD b []).getLast? = some d) (hv : ∀ j, b < j → j + 1 < n → dets.getD j [] = [])
    (hs : debutTrame c b d + c.nspl ≤ n * c.Ne) : ∃ t ∈ l.flatten, Livree c xs.flatten b d t := by
  set P := Tampon.paquets c.Ne xs.flatten with hP
  have hPl : P.length = xs.flatten.length / c.Ne := by rw [hP, paquets_longueur]
  have hPt : ∀ q ∈ P, q.length = c.Ne := paquets_taille _ _
  rcases recepteur_blocs c hc.Ne d0 s h xs with ⟨e1, -⟩ | ⟨s1, l1, e, e1, e2, e3, -⟩
  · rw [hf] at e1; cases e1
  rw [hf] at e1
  simp only [Option.some.injEq, Prod.mk.injEq] at e1
  obtain ⟨rfl, rfl⟩ := e1
  obtain ⟨h1, h2, h3, h4, h5, h6, h7⟩ := recepteur_neuf c hc.Ne d0 s h
  obtain ⟨i1, i2⟩ := inv_neuf c hc d0 s h
  -- the blocks before, the block, the following ones, the last ones
  obtain ⟨xb, hxb⟩ : ∃ xb, P = P.take b ++ xb :: ((P.take n).drop (b + 1) ++ P.drop n) := by
    refine ⟨P[b]'(by omega), ?_⟩
    have e1 : P.drop b = P[b]'(by omega) :: P.drop (b + 1) := List.drop_eq_getElem_cons (by omega)
    have e2 : P.drop (b + 1) = (P.take n).drop (b + 1) ++ P.drop n := by
      conv_lhs => rw [← List.take_append_drop n P, List.drop_append_of_le_length (by rw [List.length_take]; omega)]
    rw [← e2, ← e1, List.take_append_drop]
  set A := P.take b with hA
  set B := (P.take n).drop (b + 1) with hB
  have hAl : A.length = b := by rw [hA, List.length_take]; omega
  have hBl : B.length = n - (b + 1) := by rw [hB, List.length_drop, List.length_take]; omega
  rw [← hP, hxb, blocs_append] at e2
  obtain ⟨sA, eA, e2⟩ := Option.bind_eq_some_iff.1 e2
  unfold EtatRec.blocs at e2
  obtain ⟨sb, eb, e2⟩ := Option.bind_eq_some_iff.1 e2
  rw [blocs_append] at e2
  obtain ⟨sB, eB, eR⟩ := Option.bind_eq_some_iff.1 e2
  rw [hxb] at hd
  obtain ⟨dA, aA, aR, f1, f2, f3, f4⟩ := fluxDet_coupe _ _ _ _ _ _ hd
  unfold fluxDet at f2
  obtain ⟨rb, f5, f2⟩ := Option.bind_eq_some_iff.1 f2
  obtain ⟨q, f6, f2⟩ := Option.map_eq_some_iff.1 f2
  simp only [Prod.mk.injEq] at f2
  obtain ⟨-, rfl⟩ := f2
  obtain ⟨dB, aB, aE, g1, g2, g3, g4⟩ := fluxDet_coupe _ _ _ _ _ _ f6
  set ofs : ℕ → ℕ := fun j => j * c.Ne with hofs
  obtain ⟨ds1, k1, k2, k3, k0, k4, k5⟩ := blocs_suite c hc ofs A [] s.etat sA [] i1 (fun j _ => by rw [h6]; simp [hofs]) rfl (i2 _) eA
  rw [List.nil_append] at k3 k5
  rw [h4, f1] at k1
  simp only [Option.some.injEq, Prod.mk.injEq] at k1
  obtain ⟨rfl, rfl⟩ := k1
  rw [h6, Nat.zero_add] at k0
  obtain ⟨ds2, m1, m2, m0, m3, m4, m5, -⟩ := stepNe_suite c hc ofs A xb sA sb k3 k0 _ k5 eb
  rw [f5] at m1
  simp only [Option.some.injEq] at m1
  subst m1
  have hdb' : ds2.getLast? = some d := by
    rw [f3, ← hAl, ← f4, List.getD_append_right _ _ _ _ (le_refl _), Nat.sub_self] at hdb
    simpa using hdb
  have hsuite : ∀ j : ℕ, j < B.length → sb.cnt + j * c.Ne = ofs ((A ++ [xb]).length + j) := by
    intro j _
    rw [m0, k0, hofs, List.length_append, List.length_singleton]
    ring
  have hcomp : ∃ t ∈ sB.trames, Livree c ((A ++ [xb]) ++ B).flatten b d t := by
    rcases m5 d hdb' with m5 | ⟨t, t1, t2⟩
    · rw [hAl] at m5
      refine blocs_complet c hc ofs b d B (A ++ [xb]) sb sB _ aB dB m2 hsuite (by simpa using m4) (by simpa using m5) eB g1 (fun j hj => ?_) ?_
      · have := hv (b + 1 + j) (by omega) (by omega)
        rw [f3, List.getD_append_right _ _ _ _ (by omega), f4, hAl, show b + 1 + j - b = j + 1 by omega, List.getD_cons_succ, g3, List.getD_append _ _ _ _ (by omega)] at this
        exact this
      · rw [flatten_longueur c.Ne _ (fun x hx => hPt x (by
          rw [hxb]
          simp only [List.mem_append, List.mem_singleton, List.mem_cons] at hx ⊢
          tauto)), List.length_append, List.length_append, hAl, hBl, List.length_singleton, show b + 1 + (n - (b + 1)) = n by omega]
        exact_mod_cast hs
    · rw [hAl] at t2
      refine ⟨t, (blocs_prefixe c hc ofs B (A ++ [xb]) sb sB _ m2 hsuite (by simpa using m4) eB).subset t1, ?_⟩
      have := livree_suite c _ B.flatten b d t t2
      simpa using this
  obtain ⟨t, t1, t2⟩ := hcomp
  have hpre : sB.trames <+: e.trames := by
    obtain ⟨ds3, -, -, n1, n0, -, n2⟩ := blocs_suite c hc ofs B (A ++ [xb]) sb sB (aA ++ [ds2]) m2 hsuite (by simp [f4]) (by
      rw [listeDet_snoc, f4]
      simpa using m4) eB
    refine blocs_prefixe c hc ofs _ _ sB e _ n1 (fun j _ => ?_) n2 eR
    rw [n0, m0, k0, hofs]
    simp only [List.length_append, List.length_singleton]
    ring
  refine livree_transfert c _ b d _ _ e3 t (hpre.subset t1) (livree_prefixe c _ _ ?_ b d t t2)
  refine List.IsPrefix.trans ?_ (paquets_prefixe c.Ne hc.Ne xs.flatten)
  rw [← hP, hxb]
  exact ⟨(P.drop n).flatten, by simp⟩

/-- **C146 (several headers in the same block).**  Same hypotheses: every detection of the block `b`, the last or not, whose samples are all in the block and the previous one gives its frame. -/
theorem C146_complet_bloc {D C : Type} (c : ConfigRec D C) (hc : ValideRec c) (d0 d1 : D) (s s' : RecepteurTrames D C) (h : RecepteurTrames.cree c d0 = some s) (xs : List (List ℂ)) (l : List (List TrameRec)) (hf : s.flux c xs = some (s', l)) (dets : List (List Fourier.Detection))
    (hd : fluxDet c.det d0 (Tampon.paquets c.Ne xs.flatten) = some (d1, dets)) (b : ℕ) (hn : b < xs.flatten.length / c.Ne) (d : Fourier.Detection) (hdb : d ∈ dets.getD b [])
    (hs : debutTrame c b d + c.nspl ≤ (b + 1) * c.Ne) : ∃ t ∈ l.flatten, Livree c xs.flatten b d t := by
  set P := Tampon.paquets c.Ne xs.flatten with hP
  have hPl : P.length = xs.flatten.length / c.Ne := by rw [hP, paquets_longueur]
  have hPt : ∀ q ∈ P, q.length = c.Ne := paquets_taille _ _
  rcases recepteur_blocs c hc.Ne d0 s h xs with ⟨e1, -⟩ | ⟨s1, l1, e, e1, e2, e3, -⟩
  · rw [hf] at e1; cases e1
  rw [hf] at e1
  simp only [Option.some.injEq, Prod.mk.injEq] at e1
  obtain ⟨rfl, rfl⟩ := e1
  obtain ⟨h1, h2, h3, h4, h5, h6, h7⟩ := recepteur_neuf c hc.Ne d0 s h
  obtain ⟨i1, i2⟩ := inv_neuf c hc d0 s h
  obtain ⟨xb, hxb⟩ : ∃ xb, P = P.take b ++ xb :: P.drop (b + 1) := by
    refine ⟨P[b]'(by omega), ?_⟩
    have e1 : P.drop b = P[b]'(by omega) :: P.drop (b + 1) := List.drop_eq_getElem_cons (by omega)
    rw [← e1, List.take_append_drop]
  set A := P.take b with hA
  have hAl : A.length = b := by rw [hA, List.length_take]; omega
  rw [← hP, hxb, blocs_append] at e2
  obtain ⟨sA, eA, e2⟩ := Option.bind_eq_some_iff.1 e2
  unfold EtatRec.blocs at e2
  obtain ⟨sb, eb, eR⟩ := Option.bind_eq_some_iff.1 e2
  rw [hxb] at hd
  obtain ⟨dA, aA, aR, f1, f2, f3, f4⟩ := fluxDet_coupe _ _ _ _ _ _ hd
  unfold fluxDet at f2
  obtain ⟨rb, f5, f2⟩ := Option.bind_eq_some_iff.1 f2
  obtain ⟨q, f6, f2⟩ := Option.map_eq_some_iff.1 f2
  simp only [Prod.mk.injEq] at f2
  obtain ⟨-, rfl⟩ := f2
  set ofs : ℕ → ℕ := fun j => j * c.Ne with hofs
  obtain ⟨ds1, k1, k2, k3, k0, k4, k5⟩ := blocs_suite c hc ofs A [] s.etat sA [] i1 (fun j _ => by rw [h6]; simp [hofs]) rfl (i2 _) eA
  rw [List.nil_append] at k3 k5
  rw [h4, f1] at k1
  simp only [Option.some.injEq, Prod.mk.injEq] at k1
  obtain ⟨rfl, rfl⟩ := k1
  rw [h6, Nat.zero_add] at k0
  obtain ⟨ds2, m1, m2, m0, m3, m4, -, m5, -⟩ := stepNe_suite c hc ofs A xb sA sb k3 k0 _ k5 eb
  rw [f5] at m1
  simp only [Option.some.injEq] at m1
  subst m1
  have hdb' : d ∈ ds2 := by
    rw [f3, ← hAl, ← f4, List.getD_append_right _ _ _ _ (le_refl _), Nat.sub_self] at hdb
    simpa using hdb
  have hlen : (A.flatten ++ xb).length = (b + 1) * c.Ne := by
    rw [List.length_append, flatten_longueur c.Ne A (fun x hx => hPt x (List.mem_of_mem_take hx)), hPt xb (by rw [hxb]; simp), hAl]
    ring
  obtain ⟨t, t1, t2⟩ := m5 d hdb' (by rw [hAl, hlen]; exact_mod_cast hs)
  rw [hAl] at t2
  have hpre : sb.trames <+: e.trames := by
    refine blocs_prefixe c hc ofs _ _ sb e _ m2 (fun j _ => ?_) (by simpa using m4) eR
    rw [m0, k0, hofs]
    simp only [List.length_append, List.length_singleton]
    ring
  refine livree_transfert c _ b d _ _ e3 t (hpre.subset t1) (livree_prefixe c _ _ ?_ b d t t2)
  refine List.IsPrefix.trans ?_ (paquets_prefixe c.Ne hc.Ne xs.flatten)
  rw [← hP, hxb]
  exact ⟨(P.drop (b + 1)).flatten, by simp⟩

/-- **C147 (the size of the calls does not matter).**  For every valid configuration and two ways of cutting the same signal into calls: either both fail, or both deliver the same frames (bits, symbols, raw samples, gain, phase, score), in the same order, except for the
position of the detection, which is relative to the call. -/
theorem C147_decoupe {D C : Type} (c : ConfigRec D C) (hN : 0 < c.Ne) (d0 : D) (s : RecepteurTrames D C) (h : RecepteurTrames.cree c d0 = some s) (xs ys : List (List ℂ)) (hxy : xs.flatten = ys.flatten) :
    (s.flux c xs = none ∧ s.flux c ys = none) ∨ ∃ s1 l1 s2 l2, s.flux c xs = some (s1, l1) ∧ s.flux c ys = some (s2, l2) ∧ l1.flatten.map TrameRec.sansPosition = l2.flatten.map TrameRec.sansPosition := by
  have k1 := recepteur_blocs c hN d0 s h xs
  have k2 := recepteur_blocs c hN d0 s h ys
  rw [hxy] at k1
  rcases k1 with ⟨k1, a1⟩ | ⟨s1, l1, e1, k1, a1, b1, -⟩ <;> rcases k2 with ⟨k2, a2⟩ | ⟨s2, l2, e2, k2, a2, b2, -⟩
  · exact Or.inl ⟨k1, k2⟩
  · rw [a1] at a2; cases a2
  · rw [a1] at a2; cases a2
  · rw [a1] at a2
    obtain rfl := Option.some.inj a2
    exact Or.inr ⟨s1, l1, s2, l2, k1, k2, b1.trans b2.symm⟩

end Verif.Telecom
