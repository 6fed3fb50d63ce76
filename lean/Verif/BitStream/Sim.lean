import Verif.BitStream.Spec
import Verif.BitStream.Lemmas
/-! Simulation lemmas between the `BitStream` model and its specification (not claims). -/
namespace Verif.BitStream
open Spec

/-- Simulation relation used in the proofs. -/
def Sim (σ : Nat → Flux) (τ : Nat → BS) : Prop :=
  ∀ v, Repr (τ v) (σ v).bits ∧ (τ v).pos = (σ v).lus

theorem sim_maj {σ τ} (h : Sim σ τ) (v : Nat) (f : Flux) (s : BS) (hr : Repr s f.bits) (hp : s.pos = f.lus) :
    Sim (maj σ v f) (maj τ v s) := by
  intro x
  unfold maj
  by_cases hx : x = v <;> simp [hx]
  · exact ⟨hr, hp⟩
  · exact h x

theorem chiffres_eq (w : BitVec 32) : chiffres w = bits32 w 0 32 := by
  unfold chiffres bits32
  rw [List.range_eq_range']
  rfl

theorem valeur_lt (l : List Bool) : valeur l < 2 ^ l.length := by
  induction l with
  | nil => simp [valeur]
  | cons b l ih =>
    simp only [valeur, List.length_cons, Nat.pow_succ]
    have : b.toNat ≤ 1 := Bool.toNat_le b
    omega

theorem valeur_testBit (l : List Bool) (i : Nat) : (valeur l).testBit i = l[i]?.getD false := by
  induction l generalizing i with
  | nil => simp [valeur]
  | cons b l ih =>
    cases i with
    | zero => cases b <;> simp [valeur, Nat.testBit_zero] <;> omega
    | succ i =>
      rw [Nat.testBit_succ]
      have : (valeur (b :: l)) / 2 = valeur l := by
        have : b.toNat ≤ 1 := Bool.toNat_le b
        simp only [valeur]; omega
      rw [this, ih]; simp

theorem valeur_chiffres (w : BitVec 32) : valeur (chiffres w) = w.toNat := by
  apply Nat.eq_of_testBit_eq
  intro i
  rw [valeur_testBit]
  unfold chiffres
  by_cases hi : i < 32
  · simp [hi]
  · simp [hi]
    have := w.isLt
    exact Nat.testBit_lt_two_pow (Nat.lt_of_lt_of_le this
      (Nat.pow_le_pow_right (by omega) (show 32 ≤ i by omega)))

theorem step_sim {σ τ} (h : Sim σ τ) (op : Op) {σ' o} (e : Spec.step σ op = some (σ', o)) :
    ∃ τ', Impl.step τ op = .ok (τ', o) ∧ Sim σ' τ' := by
  cases op with
  | push v b =>
    simp only [Spec.step, Option.some.injEq, Prod.mk.injEq] at e
    obtain ⟨rfl, rfl⟩ := e
    obtain ⟨s, e1, r1, p1, _⟩ := push_spec _ _ b (h v).1
    exact ⟨_, by simp only [Impl.step, e1, bind, Except.bind], sim_maj h v _ s r1 (by rw [p1, (h v).2])⟩
  | pushU32 v w =>
    simp only [Spec.step, Option.some.injEq, Prod.mk.injEq] at e
    obtain ⟨rfl, rfl⟩ := e
    obtain ⟨s, e1, r1, p1, _⟩ := pushU32Boucle_spec _ _ w 32 0 rfl (h v).1
    rw [← chiffres_eq] at r1
    exact ⟨_, by simp only [Impl.step, pushU32, e1, bind, Except.bind], sim_maj h v _ s r1 (by rw [p1, (h v).2])⟩
  | pad v n =>
    simp only [Spec.step, Option.some.injEq, Prod.mk.injEq] at e
    obtain ⟨rfl, rfl⟩ := e
    obtain ⟨s, e1, r1, p1, _⟩ := pushN_spec _ _ false n (h v).1
    exact ⟨_, by simp only [Impl.step, pad, e1, bind, Except.bind], sim_maj h v _ s r1 (by rw [p1, (h v).2])⟩
  | padMult v m =>
    simp only [Spec.step] at e
    split at e
    · rename_i hm
      simp only [Option.some.injEq, Prod.mk.injEq] at e
      obtain ⟨rfl, rfl⟩ := e
      obtain ⟨s, e1, r1, p1, _⟩ := padMult_spec _ _ m hm (h v).1
      exact ⟨_, by simp only [Impl.step, e1, bind, Except.bind], sim_maj h v _ s r1 (by rw [p1, (h v).2])⟩
    · cases e
  | set v i b =>
    simp only [Spec.step] at e
    split at e
    · rename_i hi
      simp only [Option.some.injEq, Prod.mk.injEq] at e
      obtain ⟨rfl, rfl⟩ := e
      have hr := (h v).1
      obtain ⟨s, e1, n1, p1, l1, g1⟩ := set_spec (τ v) i b (by rw [hr.len]; omega)
      refine ⟨_, by simp only [Impl.step, e1, bind, Except.bind], sim_maj h v _ s ?_ (by rw [p1, (h v).2])⟩
      refine ⟨by simp [n1, hr.nb], by simp [l1, hr.len], ?_⟩
      intro j hj
      simp at hj
      rw [g1]
      by_cases hji : j = i
      · subst hji; simp
      · rw [if_neg hji, hr.bit j hj]
        simp [Ne.symm hji]
    · cases e
  | tronque v n =>
    simp only [Spec.step] at e
    split at e
    · rename_i hn
      simp only [Option.some.injEq, Prod.mk.injEq] at e
      obtain ⟨rfl, rfl⟩ := e
      have := resize_trunc_spec _ _ n (h v).1 hn
      exact ⟨_, rfl, sim_maj h v _ _ this.1 this.2⟩
    · cases e
  | clear v =>
    simp only [Spec.step, Option.some.injEq, Prod.mk.injEq] at e
    obtain ⟨rfl, rfl⟩ := e
    have := resize_trunc_spec _ _ 0 (h v).1 (by omega)
    exact ⟨_, rfl, sim_maj h v _ _ (by simpa [clear] using this.1) this.2⟩
  | restart v =>
    simp only [Spec.step, Option.some.injEq, Prod.mk.injEq] at e
    obtain ⟨rfl, rfl⟩ := e
    exact ⟨_, rfl, sim_maj h v _ _ (repr_pos _ _ 0 (h v).1) rfl⟩
  | append v w =>
    simp only [Spec.step, Option.some.injEq, Prod.mk.injEq] at e
    obtain ⟨rfl, rfl⟩ := e
    obtain ⟨s, e1, r1, p1, _⟩ := add_spec _ _ _ _ (h v).1 (h w).1
    exact ⟨_, by simp only [Impl.step, addAssign, e1, bind, Except.bind], sim_maj h v _ s r1 p1⟩
  | concat v w u =>
    simp only [Spec.step, Option.some.injEq, Prod.mk.injEq] at e
    obtain ⟨rfl, rfl⟩ := e
    obtain ⟨s, e1, r1, p1, _⟩ := add_spec _ _ _ _ (h w).1 (h u).1
    exact ⟨_, by simp only [Impl.step, e1, bind, Except.bind], sim_maj h v _ s r1 p1⟩
  | copie v w =>
    simp only [Spec.step, Option.some.injEq, Prod.mk.injEq] at e
    obtain ⟨rfl, rfl⟩ := e
    exact ⟨_, rfl, sim_maj h v _ _ (h w).1 (h w).2⟩
  | lire v i =>
    simp only [Spec.step, Option.map_eq_some_iff, Prod.mk.injEq] at e
    obtain ⟨b, hb, rfl, rfl⟩ := e
    obtain ⟨hi, hb⟩ := List.getElem?_eq_some_iff.1 hb
    refine ⟨τ, ?_, h⟩
    simp only [Impl.step, (h v).1.bit i hi, bind, Except.bind, hb]
  | lon v =>
    simp only [Spec.step, Option.some.injEq, Prod.mk.injEq] at e
    obtain ⟨rfl, rfl⟩ := e
    exact ⟨τ, by simp only [Impl.step, lon, (h v).1.nb], h⟩
  | eof v =>
    simp only [Spec.step, Option.some.injEq, Prod.mk.injEq] at e
    obtain ⟨rfl, rfl⟩ := e
    exact ⟨τ, by simp only [Impl.step, eof, (h v).1.nb, (h v).2, ge_iff_le], h⟩
  | pop v =>
    simp only [Spec.step, Option.map_eq_some_iff, Prod.mk.injEq] at e
    obtain ⟨b, hb, rfl, rfl⟩ := e
    obtain ⟨hi, hb⟩ := List.getElem?_eq_some_iff.1 hb
    have hp := (h v).2
    have hi' : (τ v).pos < (σ v).bits.length := by rw [hp]; exact hi
    have e1 := pop_spec _ _ (h v).1 hi'
    refine ⟨maj τ v { τ v with pos := (τ v).pos + 1 }, ?_, ?_⟩
    · simp only [Impl.step, e1, bind, Except.bind, hp, hb]
    · exact sim_maj h v _ _ (repr_pos _ _ _ (h v).1) (by simp [hp])
  | popU32 v =>
    simp only [Spec.step] at e
    split at e
    · rename_i hl
      simp only [Option.some.injEq, Prod.mk.injEq] at e
      obtain ⟨rfl, rfl⟩ := e
      have hp := (h v).2
      obtain ⟨w, e1, _, w2⟩ := popU32Boucle_spec _ _ (h v).1 32 0 0#32 rfl (by rw [hp]; exact hl) (by simp)
      refine ⟨maj τ v { τ v with pos := (τ v).pos + 32 }, ?_, ?_⟩
      · simp only [Impl.step, popU32, e1, bind, Except.bind]
        have : w.toNat = valeur (((σ v).bits.drop (σ v).lus).take 32) := by
          apply Nat.eq_of_testBit_eq
          intro i
          rw [valeur_testBit]
          by_cases hi : i < 32
          · have := w2 i hi
            simp only [Nat.zero_add] at this
            rw [show w.toNat.testBit i = w.getLsbD i from rfl, this]
            rw [List.getElem?_take_of_lt hi, List.getElem?_drop, List.getElem?_eq_getElem (by omega)]
            simp [hp]
          · rw [Nat.testBit_lt_two_pow (Nat.lt_of_lt_of_le w.isLt
              (Nat.pow_le_pow_right (by omega) (show 32 ≤ i by omega)))]
            rw [List.getElem?_take]
            simp [hi]
        rw [this]
      · exact sim_maj h v _ _ (repr_pos _ _ _ (h v).1) (by simp [hp])
    · cases e

theorem run_sim {σ τ} (h : Sim σ τ) (ops : List Op) {σ' os} (e : Spec.run σ ops = some (σ', os)) :
    ∃ τ', Impl.run τ ops = .ok (τ', os) ∧ Sim σ' τ' := by
  induction ops generalizing σ τ os with
  | nil =>
    simp only [Spec.run, Option.some.injEq, Prod.mk.injEq] at e
    obtain ⟨rfl, rfl⟩ := e
    exact ⟨τ, rfl, h⟩
  | cons op ops ih =>
    simp only [Spec.run] at e
    split at e
    · cases e
    · rename_i σ1 o e1
      split at e
      · cases e
      · rename_i σ2 os2 e2
        simp only [Option.some.injEq, Prod.mk.injEq] at e
        obtain ⟨rfl, rfl⟩ := e
        obtain ⟨τ1, f1, h1⟩ := step_sim h op e1
        obtain ⟨τ2, f2, h2⟩ := ih h1 e2
        exact ⟨τ2, by simp only [Impl.run, f1, f2, bind, Except.bind], h2⟩

/-- an operation that is not a truncation -/
def sansTroncature : Op → Bool
  | .tronque _ _ => false
  | _ => true

theorem maj_slack {τ : Nat → BS} (h : ∀ v, Slack (τ v)) (v : Nat) (s : BS) (hs : Slack s) :
    ∀ x, Slack (maj τ v s x) := by
  intro x; unfold maj; split
  · exact hs
  · exact h x

theorem slack_pos (s : BS) (p : Nat) (h : Slack s) : Slack { s with pos := p } := h

theorem step_slack {σ τ} (h : Sim σ τ) (hk : ∀ v, Slack (τ v)) (op : Op) (hop : sansTroncature op = true)
    {σ' o} (e : Spec.step σ op = some (σ', o)) {τ'} (f : Impl.step τ op = .ok (τ', o)) : ∀ v, Slack (τ' v) := by
  cases op with
  | push v b =>
    obtain ⟨s, e1, _, _, k1⟩ := push_spec _ _ b (h v).1
    simp only [Impl.step, e1, bind, Except.bind, Except.ok.injEq, Prod.mk.injEq] at f
    rw [← f.1]; exact maj_slack hk v s (k1 (hk v))
  | pushU32 v w =>
    obtain ⟨s, e1, _, _, k1⟩ := pushU32Boucle_spec _ _ w 32 0 rfl (h v).1
    simp only [Impl.step, pushU32, e1, bind, Except.bind, Except.ok.injEq, Prod.mk.injEq] at f
    rw [← f.1]; exact maj_slack hk v s (k1 (hk v))
  | pad v n =>
    obtain ⟨s, e1, _, _, k1⟩ := pushN_spec _ _ false n (h v).1
    simp only [Impl.step, pad, e1, bind, Except.bind, Except.ok.injEq, Prod.mk.injEq] at f
    rw [← f.1]; exact maj_slack hk v s (k1 (hk v))
  | padMult v m =>
    simp only [Spec.step] at e
    split at e
    · rename_i hm
      obtain ⟨s, e1, _, _, k1⟩ := padMult_spec _ _ m hm (h v).1
      simp only [Impl.step, e1, bind, Except.bind, Except.ok.injEq, Prod.mk.injEq] at f
      rw [← f.1]; exact maj_slack hk v s (k1 (hk v))
    · cases e
  | set v i b =>
    simp only [Spec.step] at e
    split at e
    · rename_i hi
      have hr := (h v).1
      obtain ⟨s, e1, n1, p1, l1, g1⟩ := set_spec (τ v) i b (by rw [hr.len]; omega)
      simp only [Impl.step, e1, bind, Except.bind, Except.ok.injEq, Prod.mk.injEq] at f
      rw [← f.1]
      refine maj_slack hk v s ?_
      intro j hj hj2
      have hnb := hr.nb
      rw [g1, if_neg (by omega)]
      exact hk v j (by omega) (by omega)
    · cases e
  | tronque v n => simp [sansTroncature] at hop
  | clear v =>
    simp only [Impl.step, Except.ok.injEq, Prod.mk.injEq] at f
    rw [← f.1]
    refine maj_slack hk v _ ?_
    intro i _ hi; simp [clear, resize, resizeVec] at hi
  | restart v =>
    simp only [Impl.step, Except.ok.injEq, Prod.mk.injEq] at f
    rw [← f.1]
    exact maj_slack hk v _ (slack_pos _ 0 (hk v))
  | append v w =>
    obtain ⟨s, e1, r1, p1, k1⟩ := add_spec _ _ _ _ (h v).1 (h w).1
    simp only [Impl.step, addAssign, e1, bind, Except.bind, Except.ok.injEq, Prod.mk.injEq] at f
    rw [← f.1]; exact maj_slack hk v s k1
  | concat v w u =>
    obtain ⟨s, e1, r1, p1, k1⟩ := add_spec _ _ _ _ (h w).1 (h u).1
    simp only [Impl.step, e1, bind, Except.bind, Except.ok.injEq, Prod.mk.injEq] at f
    rw [← f.1]; exact maj_slack hk v s k1
  | copie v w =>
    simp only [Impl.step, Except.ok.injEq, Prod.mk.injEq] at f
    rw [← f.1]; exact maj_slack hk v _ (hk w)
  | lire v i =>
    simp only [Impl.step, bind, Except.bind] at f
    split at f
    · cases f
    · simp only [Except.ok.injEq, Prod.mk.injEq] at f
      rw [← f.1]; exact hk
  | lon v =>
    simp only [Impl.step, Except.ok.injEq, Prod.mk.injEq] at f
    rw [← f.1]; exact hk
  | eof v =>
    simp only [Impl.step, Except.ok.injEq, Prod.mk.injEq] at f
    rw [← f.1]; exact hk
  | pop v =>
    simp only [Impl.step, pop, bind, Except.bind] at f
    split at f
    · cases f
    · rename_i r hr
      split at hr
      · cases hr
      · simp only [Except.ok.injEq] at hr
        subst hr
        simp only [Except.ok.injEq, Prod.mk.injEq] at f
        rw [← f.1]; exact maj_slack hk v _ (slack_pos _ _ (hk v))
  | popU32 v =>
    simp only [Spec.step] at e
    split at e
    · rename_i hl
      have hp := (h v).2
      obtain ⟨w, e1, _, w2⟩ := popU32Boucle_spec _ _ (h v).1 32 0 0#32 rfl (by rw [hp]; exact hl) (by simp)
      simp only [Impl.step, popU32, e1, bind, Except.bind, Except.ok.injEq, Prod.mk.injEq] at f
      rw [← f.1]; exact maj_slack hk v _ (slack_pos _ _ (hk v))
    · cases e

theorem run_slack {σ τ} (h : Sim σ τ) (hk : ∀ v, Slack (τ v)) (ops : List Op)
    (hop : ops.all sansTroncature = true) {σ' os} (e : Spec.run σ ops = some (σ', os))
    {τ'} (f : Impl.run τ ops = .ok (τ', os)) : ∀ v, Slack (τ' v) := by
  induction ops generalizing σ τ os with
  | nil =>
    simp only [Impl.run, Except.ok.injEq, Prod.mk.injEq] at f
    rw [← f.1]; exact hk
  | cons op ops ih =>
    simp only [List.all_cons, Bool.and_eq_true] at hop
    simp only [Spec.run] at e
    split at e
    · cases e
    · rename_i σ1 o e1
      split at e
      · cases e
      · rename_i σ2 os2 e2
        simp only [Option.some.injEq, Prod.mk.injEq] at e
        obtain ⟨rfl, rfl⟩ := e
        obtain ⟨τ1, f1, h1⟩ := step_sim h op e1
        obtain ⟨τ2, f2, h2⟩ := run_sim h1 ops e2
        simp only [Impl.run, f1, f2, bind, Except.bind, Except.ok.injEq, Prod.mk.injEq] at f
        refine ih h1 (step_slack h hk op hop.1 e1 f1) hop.2 e2 ?_
        rw [f2, f.1]

theorem sim_init : Sim Spec.init Impl.init := fun _ => ⟨vide_repr, rfl⟩

end Verif.BitStream
