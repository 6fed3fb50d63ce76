import Verif.Telecom.DemodDec
import Verif.Telecom.CanalProps
import Verif.Telecom.ModProps
import Verif.Filtre.PropsBlocs
import Mathlib.Data.List.ReduceOption

/-!
# C139: the decision-directed demodulator does not depend on the cutting
-/

namespace Verif.Telecom

open Filtre (Decoupable enchaine boucle)

/-- Two stages in a row. -/
def paire {S₁ S₂ X Y Z : Type} (f : Filtre.Bloc S₁ X Y) (g : Filtre.Bloc S₂ Y Z) : Filtre.Bloc (S₁ × S₂) X Z := fun s x =>
  (f s.1 x).bind fun r : S₁ × List Y => (g s.2 r.2).map fun q : S₂ × List Z => ((r.1, q.1), q.2)

/-- Composition of two stages. -/
theorem decoupable_serie {S₁ S₂ X Y Z : Type} {f : Filtre.Bloc S₁ X Y} {g : Filtre.Bloc S₂ Y Z} {I₁ : S₁ → Prop} {I₂ : S₂ → Prop} (hf : Decoupable f I₁) (hg : Decoupable g I₂) :
    Decoupable (paire f g) (fun s => I₁ s.1 ∧ I₂ s.2) := by
  unfold paire
  refine ⟨fun s hs => ?_, fun s a s' y hs h => ?_, fun s a b hs => ?_⟩
  · dsimp only
    rw [hf.1 _ hs.1, Option.bind_some, hg.1 _ hs.2]; rfl
  · obtain ⟨r, h1, h⟩ := Option.bind_eq_some_iff.1 h
    obtain ⟨q, h2, h⟩ := Option.map_eq_some_iff.1 h
    simp only [Prod.mk.injEq] at h
    rw [← h.1]
    exact ⟨hf.2.1 _ _ _ _ hs.1 h1, hg.2.1 _ _ _ _ hs.2 h2⟩
  · dsimp only
    rw [hf.2.2 _ _ _ hs.1]
    cases h1 : f s.1 a with
    | none => rfl
    | some r =>
      obtain ⟨s1, y1⟩ := r
      have i1 := hf.2.1 _ _ _ _ hs.1 h1
      simp only [Option.bind_some]
      cases h2 : g s.2 y1 with
      | none =>
        simp only [Option.map_none]
        cases h3 : f s1 b with
        | none => rfl
        | some r2 =>
          simp only [Option.bind_some]
          rw [hg.2.2 _ _ _ hs.2, h2]
          rfl
      | some q =>
        obtain ⟨s2, z1⟩ := q
        simp only [Option.map_some]
        cases h3 : f s1 b with
        | none => rfl
        | some r2 =>
          simp only [Option.bind_some]
          rw [hg.2.2 _ _ _ hs.2, h2]
          simp only
          cases g s2 r2.2 <;> rfl

/-- A stage that may be absent. -/
theorem rif_decoupable : Decoupable (Filtre.Rif.step (T := ℂ) (C := ℂ) 0 (· + ·) (· * ·)) (fun s => s.K ≠ 0) := by
  have hb := Filtre.boucle_decoupable (Filtre.Rif.ech (T := ℂ) (C := ℂ) 0 (· + ·) (· * ·))
  have keep : ∀ (xs : List ℂ) (s s' : Filtre.Rif ℂ ℂ) (y : List ℂ), boucle (Filtre.Rif.ech (T := ℂ) (C := ℂ) 0 (· + ·) (· * ·)) s xs = some (s', y) → s'.K = s.K := by
    intro xs
    induction xs with
    | nil => intro s s' y h; simp [boucle] at h; rw [h.1]
    | cons x xs ih =>
      intro s s' y h
      simp only [boucle] at h
      cases e : Filtre.Rif.ech (0 : ℂ) (· + ·) (· * ·) s x with
      | none => simp [e] at h
      | some p =>
        obtain ⟨s1, y1⟩ := p
        rw [e] at h
        simp only at h
        cases e2 : boucle (Filtre.Rif.ech (0 : ℂ) (· + ·) (· * ·)) s1 xs with
        | none => simp [e2] at h
        | some q =>
          obtain ⟨s2, y2⟩ := q
          simp only [e2, Option.some.injEq, Prod.mk.injEq] at h
          rw [← h.1, ih s1 s2 y2 e2]
          simp only [Filtre.Rif.ech] at e
          repeat' split at e
          all_goals first | (simp at e; done) | (simp only [Option.some.injEq, Prod.mk.injEq] at e; rw [← e.1])
  have hstep : ∀ s : Filtre.Rif ℂ ℂ, s.K ≠ 0 → ∀ x, Filtre.Rif.step (0 : ℂ) (· + ·) (· * ·) s x = boucle (Filtre.Rif.ech 0 (· + ·) (· * ·)) s x := by
    intro s hs x
    unfold Filtre.Rif.step
    rw [if_neg hs]
  refine ⟨fun s hs => by rw [hstep s hs]; exact hb.1 s trivial, ?_, ?_⟩
  · intro s a s' y hs h
    rw [hstep s hs] at h
    rw [keep _ _ _ _ h]
    exact hs
  · intro s a b hs
    rw [hstep s hs, hstep s hs, hb.2.2 s a b trivial]
    cases e : boucle (Filtre.Rif.ech (0 : ℂ) (· + ·) (· * ·)) s a with
    | none => rfl
    | some p =>
      obtain ⟨s', y⟩ := p
      simp only
      rw [hstep s' (by rw [keep _ _ _ _ e]; exact hs)]

theorem transpo_decoupable : Decoupable TranspoBB.step (fun s => ∃ f k, s = ⟨ohcApres f k, none⟩) := by
  have key : ∀ (f : ℝ) (k : ℕ) (x : List ℂ), TranspoBB.step ⟨ohcApres f k, none⟩ x = some (⟨ohcApres f (k + x.length), none⟩, List.zipWith (· * ·) x (porteuse f k x.length)) := by
    intro f k x
    simp only [TranspoBB.step, ohc_apres_step]
  refine ⟨?_, ?_, ?_⟩
  · rintro s ⟨f, k, rfl⟩
    rw [key]; simp
  · rintro s a s' y ⟨f, k, rfl⟩ h
    rw [key] at h
    simp only [Option.some.injEq, Prod.mk.injEq] at h
    exact ⟨f, _, h.1.symm⟩
  · rintro s a b ⟨f, k, rfl⟩
    rw [key, key]
    simp only [key]
    rw [List.length_append, porteuse_append, List.zipWith_append (by rw [porteuse_longueur]), Nat.add_assoc]

/-- A stage that may be absent. -/
theorem option_decoupable {S X : Type} {f : Filtre.Bloc S X X} {I : S → Prop} (hf : Decoupable f I) (g : Filtre.Bloc (Option S) X X) (g0 : ∀ x, g none x = some (none, x))
    (g1 : ∀ s x, g (some s) x = (f s x).map fun r : S × List X => (some r.1, r.2)) : Decoupable g (fun s => ∀ t, s = some t → I t) := by
  refine ⟨fun s hs => ?_, fun s a s' y hs h => ?_, fun s a b hs => ?_⟩
  · cases s with
    | none => exact g0 []
    | some t => rw [g1, hf.1 _ (hs t rfl)]; rfl
  · cases s with
    | none =>
      rw [g0] at h
      simp only [Option.some.injEq, Prod.mk.injEq] at h
      rw [← h.1]
      exact fun t ht => by cases ht
    | some t =>
      rw [g1] at h
      obtain ⟨r, h1, h⟩ := Option.map_eq_some_iff.1 h
      simp only [Prod.mk.injEq] at h
      rw [← h.1]
      rintro u hu
      obtain rfl := Option.some.inj hu
      exact hf.2.1 _ _ _ _ (hs t rfl) h1
  · cases s with
    | none => simp only [g0]
    | some t =>
      rw [g1, g1, hf.2.2 _ _ _ (hs t rfl)]
      cases h1 : f t a with
      | none => rfl
      | some r =>
        simp only [Option.map_some, g1]
        cases f r.1 b <;> rfl

/-- States of the front end built by the library. -/
def Avant.Sain (s : Avant) : Prop := (∀ t, s.transpo = some t → ∃ f k, t = ⟨ohcApres f k, none⟩) ∧ ∀ t, s.filtre = some t → t.K ≠ 0

theorem avant_decoupable : Decoupable Avant.step Avant.Sain := by
  have h := decoupable_serie (option_decoupable transpo_decoupable Avant.stepTranspo (fun _ => rfl) (fun _ _ => rfl)) (option_decoupable rif_decoupable Avant.stepFiltre (fun _ => rfl) (fun _ _ => rfl))
  have key : ∀ (s : Avant) x, Avant.step s x = (paire Avant.stepTranspo Avant.stepFiltre (s.transpo, s.filtre) x).map fun q => ((⟨q.1.1, q.1.2⟩ : Avant), q.2) := by
    intro s x
    simp only [Avant.step, paire]
    cases Avant.stepTranspo s.transpo x with
    | none => rfl
    | some r =>
      simp only [Option.bind_some]
      cases Avant.stepFiltre s.filtre r.2 <;> rfl
  refine ⟨fun s hs => ?_, fun s a s' y hs e => ?_, fun s a b hs => ?_⟩
  · rw [key, h.1 (s.transpo, s.filtre) hs]; rfl
  · rw [key] at e
    obtain ⟨q, h1, h2⟩ := Option.map_eq_some_iff.1 e
    simp only [Prod.mk.injEq] at h2
    rw [← h2.1]
    exact h.2.1 (s.transpo, s.filtre) _ _ _ hs h1
  · rw [key, key, h.2.2 (s.transpo, s.filtre) a b hs]
    cases paire Avant.stepTranspo Avant.stepFiltre (s.transpo, s.filtre) a with
    | none => rfl
    | some p =>
      simp only [Option.map_some, key]
      cases paire Avant.stepTranspo Avant.stepFiltre p.1 b <;> rfl

theorem symdemap_append (a b : List ℕ) (k : ℕ) : symdemap (a ++ b) k = symdemap a k ++ symdemap b k := by simp [symdemap]

theorem demod_decoupable {C : Type} (c : ConfigDec C) : Decoupable (DemodDec.step c) (fun s => s.avant.Sain) := by
  have ha := avant_decoupable
  have hb := Filtre.boucle_decoupable (EtatDec.pas c)
  have key : ∀ (s : DemodDec C) x, s.avant.Sain → DemodDec.step c s x = (s.avant.step x).bind fun r : Avant × List ℂ => (boucle (EtatDec.pas c) s.etat r.2).map fun q : EtatDec C × List (Option ℤ) =>
      (⟨r.1, q.1⟩, symdemap (q.2.reduceOption.map Int.toNat) c.k) := by
    intro s x hs
    unfold DemodDec.step
    split
    · rename_i h
      subst h
      rw [ha.1 _ hs, Option.bind_some]
      rfl
    · rfl
  refine ⟨fun s _ => if_pos rfl, fun s a s' y hs h => ?_, fun s a b hs => ?_⟩
  · rw [key s a hs] at h
    obtain ⟨r, h1, h⟩ := Option.bind_eq_some_iff.1 h
    obtain ⟨q, h2, h⟩ := Option.map_eq_some_iff.1 h
    simp only [Prod.mk.injEq] at h
    rw [← h.1]
    exact ha.2.1 _ _ _ _ hs h1
  · rw [key s _ hs, key s _ hs, ha.2.2 _ _ _ hs]
    cases h1 : s.avant.step a with
    | none => rfl
    | some r =>
      obtain ⟨s1, y1⟩ := r
      have i1 := ha.2.1 _ _ _ _ hs h1
      simp only [Option.bind_some]
      cases h2 : boucle (EtatDec.pas c) s.etat y1 with
      | none =>
        simp only [Option.map_none]
        cases s1.step b with
        | none => rfl
        | some r2 =>
          simp only [Option.bind_some]
          rw [hb.2.2 _ _ _ trivial, h2]
          rfl
      | some q =>
        obtain ⟨e1, z1⟩ := q
        simp only [Option.map_some]
        rw [key ⟨s1, e1⟩ b i1]
        simp only
        cases s1.step b with
        | none => rfl
        | some r2 =>
          simp only [Option.bind_some]
          rw [hb.2.2 _ _ _ trivial, h2]
          simp only
          cases boucle (EtatDec.pas c) e1 r2.2 with
          | none => rfl
          | some q2 => simp [List.reduceOption_append, symdemap_append]

theorem avant_reset_sain {C : Type} (c : ConfigDec C) (a a' : Avant) (ha : a.Sain) (h : a.reset c = some a') : a'.Sain := by
  obtain ⟨q, h1, h2⟩ := Option.map_eq_some_iff.1 h
  rw [← h2]
  exact ⟨ha.1, (option_decoupable rif_decoupable Avant.stepFiltre (fun _ => rfl) (fun _ _ => rfl)).2.1 _ _ _ _ ha.2 h1⟩

theorem reset_sain {C : Type} (c : ConfigDec C) (cnt : ℕ) (s s' : DemodDec C) (hs : s.avant.Sain) (h : s.reset c cnt = some s') : s'.avant.Sain := by
  obtain ⟨a, h1, h2⟩ := Option.map_eq_some_iff.1 h
  rw [← h2]
  split at h1
  · exact avant_reset_sain c _ _ hs h1
  · obtain rfl := Option.some.inj h1
    exact hs

theorem coefs_non_vide (t : MiseEnForme) (osf : ℕ) (h : List ℝ) (e : t.coefs osf = some h) : h ≠ [] := by
  unfold MiseEnForme.coefs at e
  split at e
  · cases e
  · split at e
    · cases e; simp
    · cases t with
      | nrz => simp at e; rw [← e]; simp; assumption
      | aucun => simp at e; rw [← e]; simp
      | autre c => simp at e; obtain ⟨a, rfl⟩ := e; exact a

theorem cree_sain {C : Type} (c : ConfigDec C) (s : DemodDec C) (h : DemodDec.cree c = some s) : s.avant.Sain := by
  unfold DemodDec.cree at h
  split at h
  · cases h
  obtain ⟨f, h1, h⟩ := Option.bind_eq_some_iff.1 h
  obtain ⟨t, h2, h⟩ := Option.bind_eq_some_iff.1 h
  obtain ⟨a, h3, h⟩ := Option.bind_eq_some_iff.1 h
  refine reset_sain c 0 _ s ?_ h
  have h0 : Avant.Sain ⟨t, f⟩ := by
    constructor
    · rintro u hu
      simp only at hu
      subst hu
      split at h2
      · cases h2
      · simp only [TranspoBB.cree, Option.map_some, Option.some.injEq, if_false, Bool.false_eq_true] at h2
        exact ⟨-c.fi, 0, by rw [← h2, ohc_apres_initial]⟩
    · rintro u hu
      simp only at hu
      subst hu
      unfold ConfigDec.filtreAdapte at h1
      split at h1
      · obtain ⟨l, h4, h5⟩ := Option.map_eq_some_iff.1 h1
        have := coefs_non_vide _ _ _ h4
        simp only [Option.some.injEq] at h5
        rw [← h5]
        simp [Filtre.Rif.init, this]
      · cases h1
  split at h3
  · exact avant_reset_sain c _ _ h0 h3
  · obtain rfl := Option.some.inj h3
    exact h0

/-- **C139 (cutting).** For every waveform, every shaping and every setting of the loops, a demodulator gives the same bits (and ends in the same state) whatever the cutting of the received signal into blocks; also after any
reset. -/
theorem C139_decoupe {C : Type} (c : ConfigDec C) (s0 s : DemodDec C) (h0 : DemodDec.cree c = some s0) (avant : List (List ℂ)) (hs : ∃ s1 y cnt, enchaine (DemodDec.step c) s0 avant = some (s1, y) ∧ (s = s1 ∨ s1.reset c cnt = some s))
    (blocs : List (List ℂ)) : enchaine (DemodDec.step c) s blocs = DemodDec.step c s blocs.flatten := by
  have hd := demod_decoupable c
  refine Filtre.enchaine_eq _ _ hd blocs s ?_
  obtain ⟨s1, y, cnt, h1, h2⟩ := hs
  have i0 := cree_sain c s0 h0
  rw [Filtre.enchaine_eq _ _ hd avant s0 i0] at h1
  have i1 := hd.2.1 _ _ _ _ i0 h1
  rcases h2 with rfl | h2
  · exact i1
  · exact reset_sain c cnt s1 s i1 h2

/-! ### State after the creation, signal after the front end -/

/-- A FIR filter, from any history. -/
theorem rif_histoire (c : List ℂ) (s : Filtre.Rif ℂ ℂ) (h x : List ℂ) (hr : Filtre.Rif.Rep (0 : ℂ) c s h) (hc : c ≠ []) : ∃ s' y, Filtre.Rif.step (0 : ℂ) (· + ·) (· * ·) s x = some (s', y) ∧
    Filtre.Rif.Rep (0 : ℂ) c s' (h ++ x) ∧ y.length = x.length ∧ ∀ n, n < x.length → y[n]? = some (Filtre.convolution c (h ++ x) (h.length + n)) := by
  obtain ⟨s', ys, e, r, hl, ho⟩ := Filtre.boucle_hist _ (Filtre.Rif.Rep (0 : ℂ) c) (fun h => Filtre.mac (· + ·) (· * ·) 0 (Filtre.derniers 0 c.length h) c.reverse)
    (fun s h x hr => Filtre.Rif.rep_ech 0 (· + ·) (· * ·) c s h x hr) x s h hr
  refine ⟨s', ys, ?_, r, hl, fun n hn => ?_⟩
  · have hK : s.K ≠ 0 := by
      rw [hr.1]
      exact fun hh => hc (List.length_eq_zero_iff.1 hh)
    unfold Filtre.Rif.step
    rw [if_neg hK]
    exact e
  · rw [ho n hn]
    congr 1
    rw [← Filtre.window_sum c (h ++ x) (h.length + n) (by simp; omega)]
    have ht : (h ++ x).take (h.length + n + 1) = h ++ x.take (n + 1) := by
      rw [List.take_append, List.take_of_length_le (by omega), show h.length + n + 1 - h.length = n + 1 by omega]
    rw [ht]

/-- Zeros before the signal change nothing. -/
theorem convolution_zeros (c x : List ℂ) (m n : ℕ) : Filtre.convolution c (List.replicate m 0 ++ x) (m + n) = Filtre.convolution c x n := by
  unfold Filtre.convolution
  refine Finset.sum_congr rfl fun k _ => ?_
  congr 1
  unfold Filtre.passe
  by_cases hk : k ≤ n
  · rw [if_pos (by omega), if_pos hk, List.getD_append_right _ _ _ _ (by simp; omega)]
    simp only [List.length_replicate]
    congr 1
    omega
  · rw [if_neg hk]
    split
    · rw [List.getD_append _ _ _ _ (by simp; omega)]
      simp
    · rfl

/-- State of the loops after the creation. -/
noncomputable def etatInitial {C : Type} (c : ConfigDec C) : EtatDec C :=
  ⟨0, c.osf - 1, ⟨0, 0, 0⟩, 0, 1, ⟨List.replicate c.K 0, ((c.osf / 2 + 1 : ℕ) : ℝ), 0, 0⟩, c.ctx0⟩

/-- The signal in front of the loops: transposed by `fi`, then filtered by the coefficients `h` if the matched filter is used. -/
noncomputable def recu {C : Type} (c : ConfigDec C) (h : List ℝ) (x : List ℂ) : List ℂ :=
  let t := if c.fi = 0 then x else transpose c.fi x
  if 1 < c.osf ∧ c.horloge ∧ c.fa then (List.range t.length).map fun n : ℕ => Filtre.convolution (h.map fun v : ℝ => (v : ℂ)) t n else t

/-- The front end after `m` zeros. -/
def Avant.Neuf {C : Type} (c : ConfigDec C) (h : List ℝ) (m : ℕ) (a : Avant) : Prop :=
  a.transpo = (if c.fi = 0 then none else some ⟨ohcApres (-c.fi) 0, none⟩) ∧
  if 1 < c.osf ∧ c.horloge ∧ c.fa then ∃ f, a.filtre = some f ∧ Filtre.Rif.Rep (0 : ℂ) (h.map fun v : ℝ => (v : ℂ)) f (List.replicate m 0) else a.filtre = none

theorem neuf_reset {C : Type} (c : ConfigDec C) (h : List ℝ) (hh : h ≠ []) (m : ℕ) (a : Avant) (ha : a.Neuf c h m) : ∃ a', a.reset c = some a' ∧ a'.Neuf c h (m + 5 * c.osf) := by
  obtain ⟨h1, h2⟩ := ha
  unfold Avant.reset
  split at h2
  · rename_i hu
    obtain ⟨f, h2, h3⟩ := h2
    obtain ⟨f', y, e, r, -, -⟩ := rif_histoire _ f _ (List.replicate (5 * c.osf) 0) h3 (by simpa using hh)
    rw [← List.replicate_add] at r
    refine ⟨{ a with filtre := some f' }, by rw [h2]; simp only [Avant.stepFiltre, e]; rfl, h1, ?_⟩
    rw [if_pos hu]
    exact ⟨f', rfl, r⟩
  · rename_i hu
    refine ⟨a, by rw [h2]; simp only [Avant.stepFiltre, Option.map_some]; rw [← h2], h1, ?_⟩
    rw [if_neg hu]
    exact h2

theorem neuf_step {C : Type} (c : ConfigDec C) (h : List ℝ) (hh : h ≠ []) (m : ℕ) (a : Avant) (ha : a.Neuf c h m) (x : List ℂ) : ∃ a', a.step x = some (a', recu c h x) := by
  obtain ⟨h1, h2⟩ := ha
  have e1 : ∃ t', Avant.stepTranspo a.transpo x = some (t', if c.fi = 0 then x else transpose c.fi x) := by
    rw [h1]
    split
    · exact ⟨none, rfl⟩
    · refine ⟨some ⟨ohcApres (-c.fi) (0 + x.length), none⟩, ?_⟩
      simp only [Avant.stepTranspo, TranspoBB.step, ohc_apres_step, transpose, Option.map_some]
  obtain ⟨t', e1⟩ := e1
  unfold Avant.step recu
  rw [e1, Option.bind_some]
  generalize (if c.fi = 0 then x else transpose c.fi x) = t
  dsimp only
  split at h2
  · rename_i hu
    obtain ⟨f, h2, h3⟩ := h2
    obtain ⟨f', y, e, r, hl, hv⟩ := rif_histoire _ f _ t h3 (by simpa using hh)
    refine ⟨⟨t', some f'⟩, ?_⟩
    rw [h2, if_pos hu]
    simp only [Avant.stepFiltre, e, Option.map_some, Option.some.injEq, Prod.mk.injEq, true_and]
    apply List.ext_getElem?
    intro n
    by_cases hn : n < t.length
    · rw [hv n hn, List.length_replicate, convolution_zeros]
      simp [hn]
    · rw [List.getElem?_eq_none (by omega), List.getElem?_eq_none (by simpa using hn)]
  · rename_i hu
    rw [h2, if_neg hu]
    exact ⟨⟨t', none⟩, rfl⟩

theorem cree_forme {C : Type} (c : ConfigDec C) (hosf : 0 < c.osf) (h : List ℝ) (hh : c.forme.coefs c.osf = some h) : ∃ s0 m, DemodDec.cree c = some s0 ∧ s0.etat = etatInitial c ∧ s0.avant.Neuf c h m := by
  have hne := coefs_non_vide _ _ _ hh
  have key : ∃ f t, c.filtreAdapte = some f ∧ (if c.fi = 0 then some none else (TranspoBB.cree false c.fi 0).map some) = some t ∧ Avant.Neuf c h 0 ⟨t, f⟩ := by
    have ht : (if c.fi = 0 then some none else (TranspoBB.cree false c.fi 0).map some) = some (if c.fi = 0 then none else some (⟨ohcApres (-c.fi) 0, none⟩ : TranspoBB)) := by
      split
      · rfl
      · simp [TranspoBB.cree, ohc_apres_initial]
    unfold ConfigDec.filtreAdapte
    by_cases hu : 1 < c.osf ∧ c.horloge ∧ c.fa
    · rw [if_pos hu, hh]
      refine ⟨_, _, rfl, ht, rfl, ?_⟩
      rw [if_pos hu]
      exact ⟨_, rfl, Filtre.Rif.rep_init 0 _ (by simpa using List.length_pos_iff.2 hne)⟩
    · rw [if_neg hu]
      refine ⟨_, _, rfl, ht, rfl, ?_⟩
      rw [if_neg hu]
  obtain ⟨f, t, hf, ht, n0⟩ := key
  unfold DemodDec.cree
  rw [if_neg hosf.ne', hf, Option.bind_some, ht, Option.bind_some]
  by_cases hc : c.horloge
  · rw [if_pos hc]
    obtain ⟨a1, r1, n1⟩ := neuf_reset c h hne 0 _ n0
    obtain ⟨a2, r2, n2⟩ := neuf_reset c h hne _ _ n1
    refine ⟨⟨a2, etatInitial c⟩, _, ?_, rfl, n2⟩
    rw [r1, Option.bind_some]
    simp only [DemodDec.reset, hc, if_true, r2, Option.map_some]
    rfl
  · rw [if_neg hc, Option.bind_some]
    refine ⟨⟨⟨t, f⟩, etatInitial c⟩, 0, ?_, rfl, n0⟩
    simp only [DemodDec.reset, hc]
    rfl

/-- A whole reception, from the creation: the loops run on the signal `recu`, whatever the cutting. -/
theorem demod_flux {C : Type} (c : ConfigDec C) (hosf : 0 < c.osf) (h : List ℝ) (hh : c.forme.coefs c.osf = some h) (blocs : List (List ℂ)) :
    ∃ s0 a, DemodDec.cree c = some s0 ∧ enchaine (DemodDec.step c) s0 blocs = (boucle (EtatDec.pas c) (etatInitial c) (recu c h blocs.flatten)).map fun q : EtatDec C × List (Option ℤ) =>
      (⟨a, q.1⟩, symdemap (q.2.reduceOption.map Int.toNat) c.k) := by
  obtain ⟨s0, m, e0, e1, n0⟩ := cree_forme c hosf h hh
  obtain ⟨a, ea⟩ := neuf_step c h (coefs_non_vide _ _ _ hh) m _ n0 blocs.flatten
  refine ⟨s0, a, e0, ?_⟩
  rw [Filtre.enchaine_eq _ _ (demod_decoupable c) blocs s0 (cree_sain c s0 e0)]
  unfold DemodDec.step
  split
  · rename_i hx
    rw [hx] at ea ⊢
    rw [(avant_decoupable).1 _ (cree_sain c s0 e0)] at ea
    simp only [Option.some.injEq, Prod.mk.injEq] at ea
    rw [← ea.2, ← ea.1, ← e1]
    rfl
  · rw [ea, Option.bind_some, e1]

end Verif.Telecom
