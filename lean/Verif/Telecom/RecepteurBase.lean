import Verif.Telecom.Recepteur
import Verif.Telecom.DemodDecProps
import Mathlib.Data.List.ReduceOption

/-!
# Receiver: the receive chain of a frame as a stream operator
-/

namespace Verif.Telecom

open Filtre (Decoupable enchaine boucle)

/-! ### Filters -/

/-- Change of the representation of the state. -/
theorem decoupable_transport {S S' X Y : Type} {f : Filtre.Bloc S X Y} {I : S → Prop} (hf : Decoupable f I) (g : Filtre.Bloc S' X Y) (φ : S' → S) (ψ : S → S') (h1 : ∀ s, φ (ψ s) = s) (h2 : ∀ s, ψ (φ s) = s)
    (hg : ∀ s x, g s x = (f (φ s) x).map fun r : S × List Y => (ψ r.1, r.2)) : Decoupable g (fun s => I (φ s)) := by
  refine ⟨fun s hs => ?_, fun s a s' y hs h => ?_, fun s a b hs => ?_⟩
  · rw [hg, hf.1 _ hs, Option.map_some, h2]
  · rw [hg] at h
    obtain ⟨r, k1, k2⟩ := Option.map_eq_some_iff.1 h
    simp only [Prod.mk.injEq] at k2
    rw [← k2.1, h1]
    exact hf.2.1 _ _ _ _ hs k1
  · rw [hg, hg, hf.2.2 _ _ _ hs]
    cases k1 : f (φ s) a with
    | none => rfl
    | some r =>
      simp only [Option.map_some]
      rw [hg, h1]
      cases f r.1 b <;> rfl

/-- Multiplication of the input by a constant. -/
theorem decoupable_gain {S X Y : Type} {f : Filtre.Bloc S X Y} {I : S → Prop} (hf : Decoupable f I) (u : X → X) : Decoupable (fun s (x : List X) => f s (x.map u)) I := by
  refine ⟨fun s hs => ?_, fun s a s' y hs h => hf.2.1 _ _ _ _ hs h, fun s a b hs => ?_⟩
  · simp only [List.map_nil]; exact hf.1 _ hs
  · dsimp only
    rw [List.map_append, hf.2.2 _ _ _ hs]

theorem retire_decoupable : Decoupable retire (fun _ => True) := by
  refine ⟨fun d _ => by simp [retire], fun _ _ _ _ _ _ => trivial, fun d a b _ => ?_⟩
  simp only [retire, List.length_append, List.drop_append, Nat.sub_sub]

/-- States that the filters of the receive chain can reach. -/
def Front.Sain (R : ℕ) (s : Front) : Prop := s.itrp.K ≠ 0 ∧ s.fa.K ≠ 0 ∧ ∃ n : ℕ, n < R ∧ s.decim = ⟨R, n⟩

theorem front_decoupable (R : ℕ) (hR : 0 < R) (g : ℂ) : Decoupable (Front.step g) (Front.Sain R) := by
  have h := decoupable_serie (decoupable_gain rif_decoupable fun v : ℂ => v * g) (decoupable_serie rif_decoupable (decoupable_serie retire_decoupable (Filtre.decim_decoupable (T := ℂ) R hR)))
  have h' := decoupable_transport h (Front.step g) (fun s => (s.itrp, s.fa, s.delais, s.decim)) (fun s => ⟨s.1, s.2.1, s.2.2.1, s.2.2.2⟩) (fun _ => rfl) (fun _ => rfl) (by
    intro s x
    simp only [paire, Front.step]
    cases Filtre.Rif.step (0 : ℂ) (· + ·) (· * ·) s.itrp (x.map fun v : ℂ => v * g) with
    | none => rfl
    | some a =>
      simp only [Option.bind_some]
      cases Filtre.Rif.step (0 : ℂ) (· + ·) (· * ·) s.fa a.2 with
      | none => rfl
      | some b =>
        simp only [Option.bind_some]
        cases retire s.delais b.2 with
        | none => rfl
        | some r =>
          simp only [Option.bind_some]
          cases Filtre.Decim.step s.decim r.2 <;> rfl)
  refine ⟨fun s hs => h'.1 s ?_, fun s a s' y hs h => ?_, fun s a b hs => h'.2.2 s a b ?_⟩
  · exact ⟨hs.1, hs.2.1, trivial, hs.2.2⟩
  · obtain ⟨k1, k2, -, k3⟩ := h'.2.1 s a s' y ⟨hs.1, hs.2.1, trivial, hs.2.2⟩ h
    exact ⟨k1, k2, k3⟩
  · exact ⟨hs.1, hs.2.1, trivial, hs.2.2⟩

/-- Output of a FIR filter from rest. -/
noncomputable def filtree (h : List ℝ) (x : List ℂ) : List ℂ := (List.range x.length).map fun n : ℕ => Filtre.convolution (h.map fun v : ℝ => (v : ℂ)) x n

theorem rif_filtree (h : List ℝ) (hh : h ≠ []) (x : List ℂ) : ∃ s, Filtre.Rif.step (0 : ℂ) (· + ·) (· * ·) (Filtre.Rif.init 0 (h.map fun v : ℝ => (v : ℂ))) x = some (s, filtree h x) ∧ s.K ≠ 0 := by
  have hne : h.map (fun v : ℝ => (v : ℂ)) ≠ [] := by simpa using hh
  obtain ⟨s, y, e, r, hl, hv⟩ := rif_histoire _ _ [] x (Filtre.Rif.rep_init (0 : ℂ) _ (List.length_pos_iff.2 hne)) hne
  refine ⟨s, ?_, by rw [r.1]; simpa using hh⟩
  rw [e]
  congr 2
  refine List.ext_getElem? fun n => ?_
  by_cases hn : n < x.length
  · rw [hv n hn]
    simp [filtree, hn]
  · rw [List.getElem?_eq_none (by omega), List.getElem?_eq_none (by simp [filtree]; omega)]

/-- The filters of a new receive chain: interpolator, matched filter, removal of the delay, decimation. They never fail. -/
theorem front_neuf (h1 h : List ℝ) (d R : ℕ) (hR : 0 < R) (hh1 : h1 ≠ []) (hh : h ≠ []) (g : ℂ) (x : List ℂ) :
    ∃ s, Front.step g ⟨Filtre.Rif.init 0 (h1.map fun v : ℝ => (v : ℂ)), Filtre.Rif.init 0 (h.map fun v : ℝ => (v : ℂ)), d, ⟨R, 0⟩⟩ x = some (s, Filtre.unSur R ((filtree h (filtree h1 (x.map fun v : ℂ => v * g))).drop d)) := by
  obtain ⟨a, e1, -⟩ := rif_filtree h1 hh1 (x.map fun v : ℂ => v * g)
  obtain ⟨b, e2, -⟩ := rif_filtree h hh (filtree h1 (x.map fun v : ℂ => v * g))
  obtain ⟨e, e3⟩ := Filtre.C22_un_sur_R R hR [(filtree h (filtree h1 (x.map fun v : ℂ => v * g))).drop d]
  have e4 : Filtre.Decim.step ⟨R, 0⟩ ((filtree h (filtree h1 (x.map fun v : ℂ => v * g))).drop d) = some (e, Filtre.unSur R ((filtree h (filtree h1 (x.map fun v : ℂ => v * g))).drop d)) := by
    rw [Filtre.C18_decimateur R hR, List.flatten_singleton] at e3
    exact e3
  simp only [Front.step]
  rw [e1, Option.bind_some]
  dsimp only
  rw [e2, Option.bind_some]
  dsimp only [retire]
  rw [Option.bind_some]
  dsimp only
  rw [e4, Option.map_some]
  exact ⟨_, rfl⟩

/-- Number of symbols given by the filters of a new receive chain. -/
theorem unSur_longueur (R : ℕ) (hR : 0 < R) (x : List ℂ) : x.length ≤ R * (Filtre.unSur R x).length ∧ R * (Filtre.unSur R x).length < x.length + R := by
  obtain ⟨s, y, e, h⟩ := Filtre.decim_longueur R hR x
  obtain ⟨s', e'⟩ := Filtre.C22_un_sur_R R hR [x]
  rw [Filtre.C18_decimateur R hR, List.flatten_singleton, e] at e'
  simp only [Option.some.injEq, Prod.mk.injEq] at e'
  rw [← e'.2]
  exact h

/-! ### Demodulator at one sample per symbol -/

/-- Configuration of the demodulator of a receiver, core/src/telecom/recepteur.cc:205-214: one sample per symbol, in base band, without clock recovery; a decision is made for every sample. -/
structure UnParSymbole {C : Type} (c : ConfigDec C) : Prop where
  osf : c.osf = 1
  fi : c.fi = 0
  horloge : c.horloge = false
  decide : ∀ s y r, c.ctx s y = some r → r.2.1 ≠ -1

/-- A new demodulator told that `n` symbols have already been received. -/
noncomputable def demodNeuf {C : Type} (c : ConfigDec C) (n : ℕ) : DemodDec C := ⟨⟨none, none⟩, { cnt := n, cnt1 := 0, boucle := ⟨0, 0, 0⟩, lye := 0, gain := 1, hor := RecHorloge.reset c ⟨[], 0, 0, 0⟩, ctx := c.ctx0 }⟩

/-- States of the demodulator of a receiver. -/
def Calme {C : Type} (c : ConfigDec C) (s : DemodDec C) : Prop := s.avant = ⟨none, none⟩ ∧ s.etat.hor = RecHorloge.reset c ⟨[], 0, 0, 0⟩

theorem calme_neuf {C : Type} (c : ConfigDec C) (n : ℕ) : Calme c (demodNeuf c n) := ⟨rfl, rfl⟩

theorem calme_cree {C : Type} (c : ConfigDec C) (hc : UnParSymbole c) : DemodDec.cree c = some (demodNeuf c 0) := by
  unfold DemodDec.cree
  rw [if_neg (by rw [hc.osf]; omega)]
  simp [ConfigDec.filtreAdapte, hc.horloge, hc.fi, DemodDec.reset, demodNeuf, hc.osf]

theorem calme_reset {C : Type} (c : ConfigDec C) (hc : UnParSymbole c) (s : DemodDec C) (hs : Calme c s) (n : ℕ) : s.reset c n = some (demodNeuf c n) := by
  unfold DemodDec.reset
  rw [hc.horloge]
  simp only [Bool.false_eq_true, if_false, Option.map_some, hs.1, hs.2, hc.osf]
  rfl

theorem pas_calme {C : Type} (c : ConfigDec C) (hc : UnParSymbole c) (s s' : EtatDec C) (x : ℂ) (o : Option ℤ) (h : EtatDec.pas c s x = some (s', o)) : s'.hor = s.hor ∧ o.isSome := by
  unfold EtatDec.pas at h
  obtain ⟨y, -, h⟩ := Option.bind_eq_some_iff.1 h
  simp only [EtatDec.echantillonne, hc.horloge, Bool.false_eq_true, if_false, hc.osf, one_ne_zero, Nat.mod_one, if_true, Option.bind_some] at h
  unfold EtatDec.decide at h
  obtain ⟨d, h1, h⟩ := Option.bind_eq_some_iff.1 h
  rw [if_neg (hc.decide _ _ _ h1)] at h
  obtain ⟨g, -, h⟩ := Option.map_eq_some_iff.1 h
  simp only [Prod.mk.injEq] at h
  rw [← h.1, ← h.2]
  simp [hc.horloge]

theorem boucle_calme {C : Type} (c : ConfigDec C) (hc : UnParSymbole c) (x : List ℂ) : ∀ (s s' : EtatDec C) (l : List (Option ℤ)), boucle (EtatDec.pas c) s x = some (s', l) → s'.hor = s.hor ∧ l.reduceOption.length = x.length := by
  induction x with
  | nil =>
    intro s s' l h
    simp only [boucle, Option.some.injEq, Prod.mk.injEq] at h
    rw [← h.1, ← h.2]
    exact ⟨rfl, rfl⟩
  | cons a x ih =>
    intro s s' l h
    unfold boucle at h
    cases h1 : EtatDec.pas c s a with
    | none => rw [h1] at h; cases h
    | some r =>
      obtain ⟨s1, o⟩ := r
      obtain ⟨k1, k2⟩ := pas_calme c hc _ _ _ _ h1
      rw [h1] at h
      simp only at h
      cases h2 : boucle (EtatDec.pas c) s1 x with
      | none => rw [h2] at h; cases h
      | some q =>
        obtain ⟨s2, l2⟩ := q
        rw [h2] at h
        simp only [Option.some.injEq, Prod.mk.injEq] at h
        obtain ⟨k3, k4⟩ := ih _ _ _ h2
        obtain ⟨v, rfl⟩ := Option.isSome_iff_exists.1 k2
        rw [← h.1, ← h.2]
        exact ⟨k3.trans k1, by rw [List.reduceOption_cons_of_some, List.length_cons, List.length_cons, k4]⟩

/-- The demodulator gives `k` bits per sample. -/
theorem demod_calme {C : Type} (c : ConfigDec C) (hc : UnParSymbole c) (s s' : DemodDec C) (hs : Calme c s) (x : List ℂ) (bits : List Bool) (h : DemodDec.step c s x = some (s', bits)) : Calme c s' ∧ bits.length = c.k * x.length := by
  unfold DemodDec.step at h
  split at h
  · rename_i hx
    simp only [Option.some.injEq, Prod.mk.injEq] at h
    rw [← h.1, ← h.2, hx]
    exact ⟨hs, by simp⟩
  · rw [hs.1] at h
    simp only [Avant.step, Avant.stepTranspo, Avant.stepFiltre, Option.bind_some, Option.map_some] at h
    obtain ⟨q, h1, h⟩ := Option.map_eq_some_iff.1 h
    simp only [Prod.mk.injEq] at h
    obtain ⟨k1, k2⟩ := boucle_calme c hc _ _ _ _ h1
    rw [← h.1, ← h.2]
    refine ⟨⟨rfl, k1.trans hs.2⟩, ?_⟩
    rw [← k2]
    generalize q.2.reduceOption = l
    clear h h1 k1 k2
    induction l with
    | nil => simp [symdemap]
    | cons a l ih =>
      simp only [symdemap, List.map_cons, List.flatMap_cons, List.length_append, List.length_map, List.length_range, List.length_cons] at ih ⊢
      rw [ih]; ring

end Verif.Telecom
