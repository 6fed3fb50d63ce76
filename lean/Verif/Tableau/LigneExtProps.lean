/-
C211: the extended delay line of the pattern detector — content, effect on the caller's vectors, and the
window used for the noise estimation.  core/src/fourier/detection.cc:25-62, 443-470
-/
import Verif.Tableau.LigneExt

namespace Tableau
namespace LigneExt

open Verif.Filtre (derniers)

variable {α : Type}

/-! ### The caller's program -/

theorem cree_ligne (e : Etat α) (x : ℕ) (v : List α) :
    Ligne (alloue e x v.length 1 v) x ⟨false, false, v.length, 1, e.tampons.length, 0, v.length⟩ [] v [] :=
  ⟨by simp [alloue, lie], rfl, rfl, rfl, rfl, by simp [alloue, lie]⟩

theorem cree_garde {e : Etat α} {m x : ℕ} {n : Noeud} {A w B v : List α} (hm : Ligne e m n A w B) (hx : x ≠ m) :
    Ligne (alloue e x v.length 1 v) m n A w B :=
  hm.garde (by simp [alloue, lie, Ne.symm hx]) (by simp [alloue, lie, List.getElem?_append_left hm.tampon])

theorem flux_ligne {m : ℕ} : ∀ (l : List (ℕ × List α)) (e : Etat α) (n : Noeud) (A w B : List α), Ligne e m n A w B →
    (∀ b ∈ l, b.1 ≠ m ∧ w.length ≤ 2 * b.2.length) →
    ∃ e' n' A' B', flux e m w.length l = .ok e' ∧
      Ligne e' m n' A' ((w ++ (l.map Prod.snd).flatten).drop (l.map Prod.snd).flatten.length) B'
  | [], e, n, A, w, B, hm, _ => ⟨e, n, A, B, rfl, by simpa using hm⟩
  | (x, v) :: r, e, n, A, w, B, hm, hl => by
    have hb := hl (x, v) (by simp)
    obtain ⟨e1, n1, A1, B1, h1, h2, _, _⟩ := step_effet (cree_garde (v := v) hm hb.1) (cree_ligne e x v) hb.1 (by
      have := hm.tampon; simp only; omega) hb.2
    have hk : ((w ++ v).drop v.length).length = w.length := by simp
    obtain ⟨e2, n2, A2, B2, h3, h4⟩ := flux_ligne r e1 n1 A1 _ B1 h2 (fun b hb => by rw [hk]; exact hl b (by simp [hb]))
    rw [hk] at h3
    refine ⟨e2, n2, A2, B2, ?_, ?_⟩
    · simp only [flux]; rw [h1]; exact h3
    · have : (List.drop v.length (w ++ v) ++ (r.map Prod.snd).flatten).drop (r.map Prod.snd).flatten.length =
          (w ++ (((x, v) :: r).map Prod.snd).flatten).drop (((x, v) :: r).map Prod.snd).flatten.length := by
        rw [← List.drop_append_of_le_length (by simp), List.drop_drop]
        simp [List.append_assoc]
      rw [← this]; exact h4

theorem configure_ligne (e : Etat α) (m K : ℕ) (zero : α) :
    Ligne (configure e m K zero) m ⟨false, false, K, 1, e.tampons.length, 0, K⟩ [] (List.replicate K zero) [] := by
  have := cree_ligne e m (List.replicate K zero)
  simpa [configure] using this

/-- **C211 (content).**  After any history of blocks of at least `K/2` samples, each in its own vector, the line contains the last
`K` samples of the stream (zeros before its beginning). -/
theorem C211_contenu (e : Etat α) (m K : ℕ) (zero : α) (l : List (ℕ × List α)) (hl : ∀ b ∈ l, b.1 ≠ m ∧ K ≤ 2 * b.2.length) :
    ∃ e', flux (configure e m K zero) m K l = .ok e' ∧ valeur e' m = .ok (derniers zero K (l.map Prod.snd).flatten) := by
  have := flux_ligne l _ _ _ _ _ (configure_ligne e m K zero) (by simpa using hl)
  rw [List.length_replicate] at this
  obtain ⟨e', n', A', B', h1, h2⟩ := this
  exact ⟨e', h1, h2.valeur⟩

example : (flux (configure ⟨[], fun _ => none⟩ 0 4 (0 : ℤ)) 0 4 [(1, [1, 2, 3, 4]), (2, [5, 6]), (3, [7, 8, 9, 10, 11]), (4, [12, 13, 14])]).map
    (fun e => valeur e 0) = .ok (.ok [11, 12, 13, 14]) := by decide

theorem flux_ref {m : ℕ} : ∀ (l : List (ℕ × List α)) (e : Etat α) (n : Noeud) (A w B : List α), Ligne e m n A w B → n.ref = true →
    (∀ b ∈ l, b.1 ≠ m ∧ w.length ≤ 2 * b.2.length) →
    ∃ e', flux e m w.length l = .ok e' ∧
      Ligne e' m n A ((w ++ (l.map Prod.snd).flatten).drop (l.map Prod.snd).flatten.length) B ∧
      ∀ y, y ∉ l.map Prod.fst → e'.vars y = e.vars y
  | [], e, n, A, w, B, hm, _, _ => ⟨e, rfl, by simpa using hm, fun _ _ => rfl⟩
  | (x, v) :: r, e, n, A, w, B, hm, hr, hl => by
    have hb := hl (x, v) (by simp)
    obtain ⟨e1, h1, h1', h2, _⟩ := step_ref (cree_garde (v := v) hm hb.1) (cree_ligne e x v) hr (by
      have := hm.tampon; simp only; omega) hb.2
    have hk : ((w ++ v).drop v.length).length = w.length := by simp
    obtain ⟨e2, h3, h4, h5⟩ := flux_ref r e1 n A _ B h2 hr (fun b hb => by rw [hk]; exact hl b (by simp [hb]))
    rw [hk] at h3
    refine ⟨e2, ?_, ?_, ?_⟩
    · simp only [flux]; rw [h1]; exact h3
    · have : (List.drop v.length (w ++ v) ++ (r.map Prod.snd).flatten).drop (r.map Prod.snd).flatten.length =
          (w ++ (((x, v) :: r).map Prod.snd).flatten).drop (((x, v) :: r).map Prod.snd).flatten.length := by
        rw [← List.drop_append_of_le_length (by simp), List.drop_drop]
        simp [List.append_assoc]
      rw [← this]; exact h4
    · intro y hy
      simp only [List.map_cons, List.mem_cons, not_or] at hy
      rw [h5 y hy.2, h1']
      simp [alloue, lie, hy.1]

/-- The first block, longer than the line: the line becomes a view of the end of the caller's vector. -/
theorem step_premier (e : Etat α) (m K x : ℕ) (zero : α) (v : List α) (hx : x ≠ m) (hv : K < v.length) :
    ∃ e1, step (alloue (configure e m K zero) x v.length 1 v) m K x = .ok e1 ∧
      Ligne e1 m ⟨true, false, K, 1, (configure e m K zero).tampons.length, v.length - K, K⟩ (v.take (v.length - K)) (v.drop (v.length - K)) [] ∧
      e1.vars x = some ⟨false, false, v.length, 1, (configure e m K zero).tampons.length, 0, v.length⟩ := by
  have hc := cree_ligne (configure e m K zero) x v
  have hm := cree_garde (v := v) (configure_ligne e m K zero) hx
  have hq := ligne_queue (y := m) hc K (by omega)
  simp only [Nat.zero_add, List.nil_append] at hq
  refine ⟨_, ?_, hq, ?_⟩
  · unfold step
    rw [noeud_of hc.var]
    simp only
    rw [if_neg (by omega), if_pos hv]
    simp only [Op.fait]
    rw [noeud_of hm.var, noeud_of hc.var]
    have := segment_queue hc K (by omega)
    simp only [Nat.zero_add] at this
    simp only
    rw [this]
    simp only [affecteMove, Bool.false_and, Bool.false_eq_true, if_false]
  · have := hc.var
    simp only [lie, if_neg hx]
    exact this

/-- **C211 refuted (the inputs are constant).**  After a first block longer than the line, every later call overwrites the end of
the vector of the caller that held this first block: whatever the following blocks, that vector finally ends with the last `K` samples of
the stream. -/
theorem C211_entree_modifiee_refute (e : Etat α) (m K x : ℕ) (zero : α) (v : List α) (hx : x ≠ m) (hv : K < v.length)
    (l : List (ℕ × List α)) (hl : ∀ b ∈ l, b.1 ≠ m ∧ b.1 ≠ x ∧ K ≤ 2 * b.2.length) :
    ∃ e', flux (configure e m K zero) m K ((x, v) :: l) = .ok e' ∧
      valeur e' x = .ok (v.take (v.length - K) ++ derniers zero K (v ++ (l.map Prod.snd).flatten)) := by
  obtain ⟨e1, h1, h2, h3⟩ := step_premier e m K x zero v hx hv
  have hk : (v.drop (v.length - K)).length = K := by simp; omega
  obtain ⟨e2, h4, h5, h6⟩ := flux_ref l e1 _ _ _ _ h2 rfl (fun b hb => by rw [hk]; exact ⟨(hl b hb).1, (hl b hb).2.2⟩)
  rw [hk] at h4
  refine ⟨e2, ?_, ?_⟩
  · simp only [flux]; rw [h1]; exact h4
  · have hy : e2.vars x = e1.vars x := h6 x (fun h => by
      obtain ⟨b, hb, hbx⟩ := List.mem_map.1 h
      exact (hl b hb).2.1 hbx)
    rw [h3] at hy
    rw [valeur_plat hy rfl]
    have hmem := h5.mem
    simp only [List.append_nil] at hmem
    simp only [Nat.mul_one]
    have hlen : (v.take (v.length - K) ++ (v.drop (v.length - K) ++ (l.map Prod.snd).flatten).drop (l.map Prod.snd).flatten.length).length = v.length := by
      simp
    rw [lisBloc_of hmem (by omega), List.drop_zero, List.take_of_length_le (by omega)]
    have e3 : (v.drop (v.length - K) ++ (l.map Prod.snd).flatten).drop (l.map Prod.snd).flatten.length = derniers zero K (v ++ (l.map Prod.snd).flatten) := by
      unfold derniers
      have z1 : (List.replicate K zero ++ (v ++ (l.map Prod.snd).flatten)).drop (v ++ (l.map Prod.snd).flatten).length =
          (v ++ (l.map Prod.snd).flatten).drop ((v ++ (l.map Prod.snd).flatten).length - K) := by
        rw [List.drop_append (l₁ := List.replicate K zero), List.length_replicate,
          List.drop_eq_nil_of_le (as := List.replicate K zero) (by simp; omega), List.nil_append]
      rw [z1, ← List.drop_append_of_le_length (by omega), List.drop_drop]
      congr 1
      simp; omega
    rw [e3]

example : (flux (configure ⟨[], fun _ => none⟩ 0 2 (0 : ℤ)) 0 2 [(1, [1, 2, 3]), (2, [4, 5, 6])]).map (fun e => valeur e 1)
    = .ok (.ok [1, 5, 6]) := by decide

/-- **C211 refuted (short blocks).**  A block of less than half the line makes `step` copy between overlapping zones, whatever
the history. -/
theorem C211_court_refute (e : Etat α) (m x : ℕ) (n s : Noeud) (w v A B C D : List α) (hm : Ligne e m n A w B) (hx : Ligne e x s C v D)
    (h : 2 * v.length < w.length) : step e m w.length x = .error .indefini := by
  unfold step
  rw [noeud_of hx.var]
  simp only
  rw [hx.r, if_neg (by omega), if_neg (by omega)]
  have hd : decale e m ((w.length : ℤ) - (v.length : ℤ)) = .error .indefini := by
    unfold decale
    rw [noeud_of hm.var]
    simp only [noeudSegment]
    rw [if_neg (by rw [hm.r]; omega), if_neg (by omega)]
    simp only
    rw [if_neg (by omega), if_neg (by rw [hm.r]; omega)]
    have hk : ((w.length : ℤ) - (v.length : ℤ)).toNat = w.length - v.length := by omega
    have h1 : ((n.r : ℤ) - ((w.length : ℤ) - (v.length : ℤ))).toNat = v.length := by rw [hm.r]; omega
    simp only [affecteVue, memesDims, beq_self_eq_true, Bool.and_self, if_true, copieNoeud, Bool.not_false, hk, Nat.mul_one, h1]
    unfold memcpy
    rw [if_pos (by simp; omega)]
  rw [hd]

example : (flux (configure ⟨[], fun _ => none⟩ 0 3 (0 : ℤ)) 0 3 [(1, [1, 2, 3, 4]), (2, [5])]).map (fun e => valeur e 0) = .error .indefini := by
  decide

/-- **C211 refuted (the same vector given twice).**  After `step(x)`, `x` longer than the line, any in-place modification of `x` by the
caller changes the content of the line, and giving `x` again is a copy of a zone onto itself. -/
theorem C211_meme_vecteur_refute (e : Etat α) (m K x : ℕ) (zero : α) (v : List α) (f : α → α) (hx : x ≠ m) (h0 : 0 < K) (hv : K < v.length) :
    ∃ e1 e2, flux (configure e m K zero) m K [(x, v)] = .ok e1 ∧ valeur e1 m = .ok (v.drop (v.length - K)) ∧
      (Op.surPlace x f).fait e1 = .ok e2 ∧ valeur e2 m = .ok ((v.map f).drop (v.length - K)) ∧
      step e2 m K x = .error .indefini := by
  obtain ⟨e1, h1, h2, h3⟩ := step_premier e m K x zero v hx hv
  have hmem := h2.mem
  simp only [List.append_nil, List.take_append_drop] at hmem
  have hl := lisBloc_of (k := 0) (n := v.length) hmem (by omega)
  rw [List.drop_zero, List.take_length] at hl
  obtain ⟨e2, he2⟩ := ecritBloc_of (e := e1) (k := 0) (vs := v.map f) hmem (by simp)
  obtain ⟨l', a1, _, a3⟩ := ecritBloc_ok he2
  have ha : l' = v := by rw [hmem] at a1; simpa using a1.symm
  rw [ha, remplace_tout _ _ (by simp)] at a3
  have hs := ecritBloc_seul he2
  have hm2 : Ligne e2 m ⟨true, false, K, 1, (configure e m K zero).tampons.length, v.length - K, K⟩ ((v.map f).take (v.length - K))
      ((v.map f).drop (v.length - K)) [] := by
    refine ⟨by rw [hs.vars]; exact h2.var, rfl, rfl, by simp; omega, by simp, ?_⟩
    simp only [List.append_nil, List.take_append_drop]
    exact a3
  refine ⟨e1, e2, ?_, h2.valeur, ?_, hm2.valeur, ?_⟩
  · simp only [flux]; rw [h1]
  · simp only [Op.fait]
    rw [noeud_of h3]
    simp only [surPlace, Nat.mul_one]
    rw [hl]
    exact he2
  · have hx2 : e2.vars x = some ⟨false, false, v.length, 1, (configure e m K zero).tampons.length, 0, v.length⟩ := by rw [hs.vars]; exact h3
    unfold step
    rw [noeud_of hx2]
    simp only
    rw [if_neg (by omega), if_pos hv]
    simp only [Op.fait]
    rw [noeud_of hm2.var, noeud_of hx2]
    simp only [noeudSegment]
    rw [if_neg (by simp), if_neg (by omega)]
    have : ((v.length : ℤ) - (K : ℤ)).toNat = v.length - K := by omega
    simp only [affecteMove, memesDims, Int.toNat_natCast, beq_self_eq_true, Bool.and_self, if_true, copieNoeud, Bool.not_false, Nat.mul_one, this,
      Nat.zero_add]
    unfold memcpy
    rw [if_pos (by simp; omega)]

/-! ### The window of the noise estimation -/

/-- `v.segment(i, n)` as a value (`none`: outside).  core/src/tableau.cc:515-531 -/
def seg (v : List α) (i n : ℤ) : Option (List α) :=
  if 0 ≤ i ∧ 0 ≤ n ∧ i + n ≤ v.length then some ((v.drop i.toNat).take n.toNat) else none

/-- Number of samples of the pattern that are in the current block.  core/src/fourier/detection.cc:453-460 -/
def dansCourant (M id : ℤ) : ℤ := if 0 ≤ id then M else if -M < id then M + id else 0

/-- The part that comes from the delay line.  core/src/fourier/detection.cc:462, 467-470 -/
def avant (mem : List α) (M id : ℤ) : Option (List α) :=
  let n := M - dansCourant M id
  if n < M then seg mem (mem.length - n) n else seg mem (id + mem.length) n

/-- `recu_vraiment`: the samples compared with the pattern.  core/src/fourier/detection.cc:447-470 -/
def recu (mem x : List α) (M D idx : ℤ) : Option (List α) := do
  let f ← seg x (max (idx - D) 0) (dansCourant M (idx - D))
  let d ← avant mem M (idx - D)
  some (d ++ f)

/-- **C211 (window of the noise estimation).**  `past` being the samples already received and `x` the current block, for a correlation
peak at index `idx` of the block (−1: the last of the previous block), the `M` samples compared with the pattern are those of the stream that
begin `D` samples before the peak, `D` being the delay of the correlator (zeros before the beginning of the stream). -/
theorem C211_fenetre (zero : α) (past x : List α) (M D : ℕ) (idx : ℤ) (h1 : -1 ≤ idx) (h2 : idx < x.length) (hM : 0 < M) (hD : M ≤ D + 1) :
    recu (derniers zero (D + 1) past) x M D idx =
      some (((List.replicate (D + 1) zero ++ past ++ x).drop (past.length + (idx + 1).toNat)).take M) := by
  have hlen : (derniers zero (D + 1) past).length = D + 1 := by simp [derniers]
  obtain ⟨q, hq⟩ : ∃ q, q = derniers zero (D + 1) past := ⟨_, rfl⟩
  have hdrop : (List.replicate (D + 1) zero ++ past ++ x).drop (past.length + (idx + 1).toNat) = (q ++ x).drop (idx + 1).toNat := by
    rw [hq]
    unfold derniers
    rw [← List.drop_append_of_le_length (by simp), List.drop_drop]
  rw [hdrop]
  rw [← hq] at hlen ⊢
  unfold recu
  by_cases c1 : 0 ≤ idx - D
  · have e1 : dansCourant (M : ℤ) (idx - D) = M := by unfold dansCourant; rw [if_pos c1]
    have e2 : max (idx - (D : ℤ)) 0 = idx - D := by omega
    rw [e1, e2]
    unfold avant seg
    simp only [e1]
    rw [if_pos (by omega), sub_self, if_pos (by omega), if_pos (by omega)]
    simp only [Option.bind_eq_bind, Option.bind_some, Int.toNat_zero, List.take_zero, List.nil_append, Int.toNat_natCast]
    rw [List.drop_append (l₁ := q), List.drop_eq_nil_of_le (as := q) (by omega), List.nil_append]
    congr 3
    omega
  · by_cases c2 : -(M : ℤ) < idx - D
    · have e1 : dansCourant (M : ℤ) (idx - D) = M + (idx - D) := by unfold dansCourant; rw [if_neg c1, if_pos c2]
      have e2 : max (idx - (D : ℤ)) 0 = 0 := by omega
      rw [e1, e2]
      unfold avant seg
      simp only [e1]
      rw [if_pos (by omega), if_pos (by omega), if_pos (by omega)]
      simp only [Option.bind_eq_bind, Option.bind_some, Int.toNat_zero, List.drop_zero]
      rw [List.drop_append, show (idx + 1).toNat - q.length = 0 by omega, List.drop_zero, List.take_append]
      have z1 : ((q.length : ℤ) - ((M : ℤ) - ((M : ℤ) + (idx - (D : ℤ))))).toNat = (idx + 1).toNat := by omega
      rw [z1]
      congr 2
      · rw [List.take_of_length_le (by simp; omega), List.take_of_length_le (by simp; omega)]
      · congr 1
        simp; omega
    · have e1 : dansCourant (M : ℤ) (idx - D) = 0 := by unfold dansCourant; rw [if_neg c1, if_neg c2]
      have e2 : max (idx - (D : ℤ)) 0 = 0 := by omega
      rw [e1, e2]
      unfold avant seg
      simp only [e1, sub_zero, lt_irrefl, if_false]
      rw [if_pos (by omega), if_pos (by omega)]
      simp only [Option.bind_eq_bind, Option.bind_some, Int.toNat_zero, List.take_zero, List.append_nil, Int.toNat_natCast]
      rw [List.drop_append, List.take_append]
      have z1 : (idx - (D : ℤ) + (q.length : ℤ)).toNat = (idx + 1).toNat := by omega
      rw [z1]
      have z2 : M - (List.drop (idx + 1).toNat q).length = 0 := by simp; omega
      rw [z2]
      simp

example : recu (derniers 0 4 [1, 2, 3, 4, 5, 6]) [7, 8, 9] 3 3 (1 : ℤ) = some [5, 6, 7] := by decide

end LigneExt
end Tableau
