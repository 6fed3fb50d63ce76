import Verif.Vue.Couleur
import Mathlib.Topology.Order.OrderClosed
import Mathlib.Topology.Piecewise
import Mathlib.Topology.Instances.Real.Lemmas
import Mathlib.Tactic.FieldSimp
import Mathlib.Tactic.Ring
import Mathlib.Tactic.FunProp

/-!
# C190: colour maps (core/src/vue/cmaps.cc)

Exact arithmetic instead of `float`.
-/

namespace Verif.Cmap

open Verif.Vue

/-! ## Model -/

/-- The three outputs of `calc` (red, green, blue), core/include/tsd/vue/image.hpp:246. -/
abbrev Rvb := ℝ × ℝ × ℝ

/-- A line of `pts`: abscissa and colour, core/src/vue/cmaps.cc:10. -/
abbrev Noeud := ℝ × Rvb

/-- The last lines of `CMapIlin::calc`, core/src/vue/cmaps.cc:37-41. -/
noncomputable def interp (p q : Noeud) (t : ℝ) : Rvb :=
  let a := (t - p.1) / (q.1 - p.1)
  ((1 - a) * p.2.1 + a * q.2.1, (1 - a) * p.2.2.1 + a * q.2.2.1, (1 - a) * p.2.2.2 + a * q.2.2.2)

/-- The search of the interval and its result, core/src/vue/cmaps.cc:26-41: `p` is `pts[i]`, the list is what follows. -/
noncomputable def cherche (t : ℝ) : Noeud → List Noeud → Rvb
  | p, [] => p.2
  | p, q :: l => if q.1 ≤ t then cherche t q l else interp p q t

/-- `CMapIlin::calc`, core/src/vue/cmaps.cc:12-42 (`none`: violated assertion). -/
noncomputable def ilin (pts : List Noeud) (t : ℝ) : Option Rvb :=
  match pts with
  | p :: q :: l => some (if t ≤ p.1 then p.2 else cherche t p (q :: l))
  | _ => none

/-- `CMapParula`, core/src/vue/cmaps.cc:45-61. -/
noncomputable def parula : List Noeud :=
  [(0, 0.26710521, 0.03311059, 0.6188155), (0.125, 0.14990781, 0.28892902, 0.59136956), (0.25, 0.1668964, 0.41027528, 0.50959299), (0.375, 0.19159194, 0.516384, 0.47597744),
   (0.5, 0.16400433, 0.63146734, 0.39450263), (0.625, 0.3704552, 0.72530195, 0.18639333), (0.75, 0.72692898, 0.75698787, 0.1691954), (0.875, 0.99505988, 0.78542889, 0.32106514), (1, 0.98680727, 0.95697596, 0.12661626)]

/-- `CMapPM`, core/src/vue/cmaps.cc:64-77. -/
noncomputable def pm : List Noeud := [(0, 0, 0, 0.5), (0.25, 0, 0, 1), (0.5, 1, 1, 1), (0.75, 1, 0, 0), (1, 0.5, 0, 0)]

/-- `CMapHSV`, core/src/vue/cmaps.cc:79-100. -/
noncomputable def hsv : List Noeud := [(0 / 5, 1, 0, 0), (1 / 5, 1, 1, 0), (2 / 5, 0, 1, 0), (3 / 5, 0, 1, 1), (4 / 5, 0, 0, 1), (1, 1, 0, 0)]

/-- `CMapMono`, core/src/vue/cmaps.cc:102-113. -/
noncomputable def mono (t : ℝ) : Rvb := if t < 0 then (1, 1, 1) else if t < 1 then (1 - t, 1 - t, 1 - t) else (0, 0, 0)

/-- `CMapMonoInv`, core/src/vue/cmaps.cc:115-126. -/
noncomputable def monoInv (t : ℝ) : Rvb := if t < 0 then (0, 0, 0) else if t < 1 then (t, t, t) else (1, 1, 1)

/-- `CMapMonoPer`, core/src/vue/cmaps.cc:128-141. -/
noncomputable def monoPer (t : ℝ) : Rvb :=
  if t < 0 then (1, 1, 1) else if t ≤ 0.5 then (2 * t, 2 * t, 2 * t) else if t ≤ 1 then (1 - 2 * (t - 0.5), 1 - 2 * (t - 0.5), 1 - 2 * (t - 0.5)) else (0, 0, 0)

/-- `CMapJet`, core/src/vue/cmaps.cc:145-184. -/
noncomputable def jet (t : ℝ) : Rvb :=
  if t < 0 then (0, 0, 0.5)
  else if t < 1 / 8 then (0, 0, 0.5 + t * 4)
  else if t < 3 / 8 then (0, (t - 1 / 8) * 4, 1)
  else if t < 5 / 8 then ((t - 3 / 8) * 4, 1, 1 - (t - 3 / 8) * 4)
  else if t < 7 / 8 then (1, 1 - (t - 5 / 8) * 4, 0)
  else if t < 1 then (1 - (t - 7 / 8) * 4, 0, 0)
  else (0.5, 0, 0)

/-- `cmap_parse` followed by `calc`, core/src/vue/cmaps.cc:200-221 (`none`: unknown name, the error is an exception). -/
noncomputable def carte (nom : String) (t : ℝ) : Option Rvb :=
  if nom = "mono" then some (mono t) else if nom = "mono-inv" then some (monoInv t) else if nom = "mono-per" then some (monoPer t)
  else if nom = "hsv" then ilin hsv t else if nom = "jet" then some (jet t) else if nom = "parula" then ilin parula t else if nom = "pm" then ilin pm t else none

/-- `CMap::couleur`, core/src/vue/cmaps.cc:186-192. -/
noncomputable def couleur (nom : String) (t : ℝ) : Option Couleur := (carte nom t).map fun c : Rvb => deReels (255 * c.1) (255 * c.2.1) (255 * c.2.2) 255

/-! ## Specification -/

/-- The names of the documented maps. -/
def noms : List String := ["mono", "mono-inv", "mono-per", "hsv", "jet", "parula", "pm"]

/-- Components between 0 and 1. -/
def Valide (c : Rvb) : Prop := (0 ≤ c.1 ∧ c.1 ≤ 1) ∧ (0 ≤ c.2.1 ∧ c.2.1 ≤ 1) ∧ 0 ≤ c.2.2 ∧ c.2.2 ≤ 1

/-- The abscissae increase strictly. -/
def Croissant (pts : List Noeud) : Prop := pts.Pairwise fun p q => p.1 < q.1

/-! ## Proofs -/

theorem interp_un {u v a : ℝ} (hu : 0 ≤ u ∧ u ≤ 1) (hv : 0 ≤ v ∧ v ≤ 1) (ha : 0 ≤ a ∧ a ≤ 1) : 0 ≤ (1 - a) * u + a * v ∧ (1 - a) * u + a * v ≤ 1 := by
  constructor
  · exact add_nonneg (mul_nonneg (by linarith) hu.1) (mul_nonneg ha.1 hv.1)
  · nlinarith [mul_nonneg (sub_nonneg.2 ha.2) (sub_nonneg.2 hu.2), mul_nonneg ha.1 (sub_nonneg.2 hv.2)]

theorem interp_valide (p q : Noeud) (t : ℝ) (hp : Valide p.2) (hq : Valide q.2) (h1 : p.1 ≤ t) (h2 : t < q.1) : Valide (interp p q t) := by
  have ha : 0 ≤ (t - p.1) / (q.1 - p.1) ∧ (t - p.1) / (q.1 - p.1) ≤ 1 :=
    ⟨div_nonneg (by linarith) (by linarith), (div_le_one (by linarith)).2 (by linarith)⟩
  exact ⟨interp_un hp.1 hq.1 ha, interp_un hp.2.1 hq.2.1 ha, interp_un hp.2.2 hq.2.2 ha⟩

theorem cherche_valide (t : ℝ) (l : List Noeud) : ∀ p : Noeud, Valide p.2 → (∀ q ∈ l, Valide q.2) → p.1 ≤ t → Valide (cherche t p l) := by
  induction l with
  | nil => intro p hp _ _; exact hp
  | cons q l ih =>
    intro p hp hl h
    rw [cherche]
    split
    · rename_i hq
      exact ih q (hl q (by simp)) (fun r hr => hl r (by simp [hr])) hq
    · rename_i hq
      exact interp_valide p q t hp (hl q (by simp)) h (not_le.1 hq)

theorem ilin_valide (pts : List Noeud) (t : ℝ) (h : ∀ p ∈ pts, Valide p.2) (h2 : 2 ≤ pts.length) : ∃ c, ilin pts t = some c ∧ Valide c := by
  match pts, h, h2 with
  | p :: q :: l, h, _ =>
    refine ⟨_, rfl, ?_⟩
    split
    · exact h p (by simp)
    · rename_i h1
      exact cherche_valide t _ p (h p (by simp)) (fun r hr => h r (by simp [hr])) (not_le.1 h1).le

theorem valide_parula : ∀ p ∈ parula, Valide p.2 := by
  intro p hp
  simp only [parula, List.mem_cons, List.not_mem_nil, or_false] at hp
  rcases hp with rfl | rfl | rfl | rfl | rfl | rfl | rfl | rfl | rfl <;> (unfold Valide; norm_num)

theorem valide_pm : ∀ p ∈ pm, Valide p.2 := by
  intro p hp
  simp only [pm, List.mem_cons, List.not_mem_nil, or_false] at hp
  rcases hp with rfl | rfl | rfl | rfl | rfl <;> (unfold Valide; norm_num)

theorem valide_hsv : ∀ p ∈ hsv, Valide p.2 := by
  intro p hp
  simp only [hsv, List.mem_cons, List.not_mem_nil, or_false] at hp
  rcases hp with rfl | rfl | rfl | rfl | rfl | rfl <;> (unfold Valide; norm_num)

/-- **C190 (range).** Every documented map gives components between 0 and 1 whatever its argument, so the colour is the exact conversion to bytes, without saturation, and it is opaque. -/
theorem C190_bornes (nom : String) (t : ℝ) (h : nom ∈ noms) : ∃ c k, carte nom t = some c ∧ Valide c ∧ couleur nom t = some k ∧
    k.r.toNat = ⌊255 * c.1⌋₊ ∧ k.g.toNat = ⌊255 * c.2.1⌋₊ ∧ k.b.toNat = ⌊255 * c.2.2⌋₊ ∧ k.alpha = 255#8 := by
  have h1 : ∃ c, carte nom t = some c ∧ Valide c := by
    simp only [noms, List.mem_cons, List.not_mem_nil, or_false] at h
    rcases h with rfl | rfl | rfl | rfl | rfl | rfl | rfl
    · refine ⟨_, rfl, ?_⟩
      unfold mono Valide
      split_ifs <;> (refine ⟨⟨?_, ?_⟩, ⟨?_, ?_⟩, ?_, ?_⟩ <;> dsimp only <;> linarith)
    · refine ⟨_, rfl, ?_⟩
      unfold monoInv Valide
      split_ifs <;> (refine ⟨⟨?_, ?_⟩, ⟨?_, ?_⟩, ?_, ?_⟩ <;> dsimp only <;> linarith)
    · refine ⟨_, rfl, ?_⟩
      unfold monoPer Valide
      split_ifs <;> (refine ⟨⟨?_, ?_⟩, ⟨?_, ?_⟩, ?_, ?_⟩ <;> dsimp only <;> norm_num at * <;> linarith)
    · exact ilin_valide hsv t valide_hsv (by simp [hsv])
    · refine ⟨_, rfl, ?_⟩
      unfold jet Valide
      split_ifs <;> (refine ⟨⟨?_, ?_⟩, ⟨?_, ?_⟩, ?_, ?_⟩ <;> dsimp only <;> norm_num at * <;> linarith)
    · exact ilin_valide parula t valide_parula (by simp [parula])
    · exact ilin_valide pm t valide_pm (by simp [pm])
  obtain ⟨c, e, v⟩ := h1
  have ho : ∀ u : ℝ, 0 ≤ u ∧ u ≤ 1 → (octet (255 * u)).toNat = ⌊255 * u⌋₊ := by
    intro u hu
    have h2 : ⌊255 * u⌋₊ ≤ 255 := Nat.floor_le_of_le (by push_cast; linarith)
    rw [octet, min_eq_left (by linarith), max_eq_right (by linarith), BitVec.toNat_ofNat]
    omega
  refine ⟨c, _, e, v, by rw [couleur, e]; rfl, ho _ v.1, ho _ v.2.1, ho _ v.2.2, ?_⟩
  show octet 255 = 255#8
  rw [octet]
  norm_num

theorem cherche_noeud (p : Noeud) (l : List Noeud) (h : Croissant (p :: l)) : cherche p.1 p l = p.2 := by
  cases l with
  | nil => rfl
  | cons q l =>
    have hq : p.1 < q.1 := (List.pairwise_cons.1 h).1 q (by simp)
    rw [cherche, if_neg (not_le.2 hq), interp]
    simp

/-- **C190 (interpolation).** In a table of increasing abscissae, the colour between two consecutive knots is the affine interpolation of theirs; before the first and after the last it is theirs. -/
theorem C190_interpolation (pts : List Noeud) (h2 : 2 ≤ pts.length) (h : Croissant pts) (t : ℝ) :
    (∀ (l1 l2 : List Noeud) (p q : Noeud), pts = l1 ++ p :: q :: l2 → p.1 ≤ t → t ≤ q.1 →
      ∃ c a, ilin pts t = some c ∧ 0 ≤ a ∧ a ≤ 1 ∧ t = (1 - a) * p.1 + a * q.1 ∧ c.1 = (1 - a) * p.2.1 + a * q.2.1 ∧ c.2.1 = (1 - a) * p.2.2.1 + a * q.2.2.1 ∧ c.2.2 = (1 - a) * p.2.2.2 + a * q.2.2.2) ∧
    (∀ p ∈ pts.head?, t ≤ p.1 → ilin pts t = some p.2) ∧ ∀ p ∈ pts.getLast?, p.1 ≤ t → ilin pts t = some p.2 := by
  have key : ∀ (l1 l2 : List Noeud) (s p q : Noeud), Croissant (s :: (l1 ++ p :: q :: l2)) → p.1 ≤ t → t ≤ q.1 → cherche t s (l1 ++ p :: q :: l2) = interp p q t := by
    intro l1
    induction l1 with
    | nil =>
      intro l2 s p q hc hp hq
      rw [List.nil_append, cherche, if_pos hp, cherche]
      have hc' : Croissant (q :: l2) := (List.pairwise_cons.1 (List.pairwise_cons.1 hc).2).2
      have hpq : p.1 < q.1 := (List.pairwise_cons.1 (List.pairwise_cons.1 hc).2).1 q (by simp)
      split
      · have : t = q.1 := by linarith
        rw [this, cherche_noeud q l2 hc', interp, div_self (by linarith)]
        simp
      · rfl
    | cons r l1 ih =>
      intro l2 s p q hc hp hq
      have hr : r.1 < p.1 := (List.pairwise_cons.1 (List.pairwise_cons.1 hc).2).1 p (by simp)
      rw [List.cons_append, cherche, if_pos (by linarith)]
      exact ih l2 r p q (List.pairwise_cons.1 hc).2 hp hq
  have key2 : ∀ (l : List Noeud) (s d : Noeud), Croissant (s :: (l ++ [d])) → d.1 ≤ t → cherche t s (l ++ [d]) = d.2 := by
    intro l
    induction l with
    | nil => intro s d _ hd; rw [List.nil_append, cherche, if_pos hd, cherche]
    | cons r l ih =>
      intro s d hc hd
      have hr : r.1 < d.1 := (List.pairwise_cons.1 (List.pairwise_cons.1 hc).2).1 d (by simp)
      rw [List.cons_append, cherche, if_pos (by linarith)]
      exact ih r d (List.pairwise_cons.1 hc).2 hd
  refine ⟨?_, ?_, ?_⟩
  · intro l1 l2 p q e hp hq
    have hpq : p.1 < q.1 := by
      rw [e, Croissant, List.pairwise_append] at h
      exact (List.pairwise_cons.1 h.2.1).1 q (by simp)
    refine ⟨interp p q t, (t - p.1) / (q.1 - p.1), ?_, div_nonneg (by linarith) (by linarith), (div_le_one (by linarith)).2 (by linarith), ?_, rfl, rfl, rfl⟩
    · cases l1 with
      | nil =>
        rw [e, List.nil_append, ilin]
        split
        · have : t = p.1 := by linarith
          rw [this, interp]
          simp
        · rw [cherche]
          split
          · have : t = q.1 := by linarith
            rw [e, List.nil_append, Croissant] at h
            rw [this, cherche_noeud q l2 (List.pairwise_cons.1 h).2, interp, div_self (by linarith)]
            simp
          · rfl
      | cons s l1 =>
        rw [e] at h
        have hs : s.1 < p.1 := (List.pairwise_cons.1 h).1 p (by simp)
        have hne : ∃ u v, l1 ++ p :: q :: l2 = u :: v := by cases l1 <;> exact ⟨_, _, rfl⟩
        obtain ⟨u, v, huv⟩ := hne
        have := key l1 l2 s p q h hp hq
        rw [e, List.cons_append, huv, ilin, if_neg (by linarith), ← huv, this]
    · have : q.1 - p.1 ≠ 0 := by linarith
      field_simp
      ring
  · intro p hp ht
    match pts, h2, hp with
    | a :: b :: l, _, hp =>
      simp only [List.head?_cons, Option.mem_def, Option.some.injEq] at hp
      subst hp
      rw [ilin, if_pos ht]
  · intro d hd ht
    match pts, h2, hd, h with
    | a :: b :: l, _, hd, h =>
      have hne : b :: l = (b :: l).dropLast ++ [d] := by
        rw [List.getLast?_cons_cons, List.getLast?_eq_some_getLast (by simp), Option.mem_def, Option.some.injEq] at hd
        rw [← hd]
        exact (List.dropLast_append_getLast (by simp)).symm
      have ha : a.1 < d.1 := (List.pairwise_cons.1 h).1 d (by rw [hne]; simp)
      rw [ilin, if_neg (by linarith), hne]
      rw [hne] at h
      rw [key2 _ a d h ht]

theorem continu_cherche (l : List Noeud) : ∀ p : Noeud, Croissant (p :: l) → Continuous fun t => cherche t p l := by
  induction l with
  | nil => intro p _; exact continuous_const
  | cons q l ih =>
    intro p h
    have hpq : p.1 < q.1 := (List.pairwise_cons.1 h).1 q (by simp)
    simp only [cherche]
    refine Continuous.if_le (ih q (List.pairwise_cons.1 h).2) ?_ continuous_const continuous_id ?_
    · unfold interp; fun_prop
    · intro t ht
      try dsimp only [id] at ht
      rw [← ht, cherche_noeud q l (List.pairwise_cons.1 h).2, interp, div_self (by linarith)]
      simp

theorem continu_ilin (pts : List Noeud) (h2 : 2 ≤ pts.length) (h : Croissant pts) : ∃ f : ℝ → Rvb, Continuous f ∧ ∀ t, ilin pts t = some (f t) := by
  match pts, h2, h with
  | p :: q :: l, _, h =>
    refine ⟨fun t => if t ≤ p.1 then p.2 else cherche t p (q :: l), ?_, fun t => rfl⟩
    refine Continuous.if_le continuous_const (continu_cherche _ p h) continuous_id continuous_const ?_
    intro t ht
    try dsimp only [id] at ht
    rw [ht, cherche_noeud p _ h]

theorem croissant_parula : Croissant parula := by unfold parula Croissant; simp; norm_num
theorem croissant_pm : Croissant pm := by unfold pm Croissant; simp; norm_num
theorem croissant_hsv : Croissant hsv := by unfold hsv Croissant; simp; norm_num

theorem continu_jet : Continuous jet := by
  have e : jet = fun t => if 0 ≤ t then (if 1 / 8 ≤ t then (if 3 / 8 ≤ t then (if 5 / 8 ≤ t then (if 7 / 8 ≤ t then (if 1 ≤ t then ((0.5, 0, 0) : Rvb)
      else (1 - (t - 7 / 8) * 4, 0, 0)) else (1, 1 - (t - 5 / 8) * 4, 0)) else ((t - 3 / 8) * 4, 1, 1 - (t - 3 / 8) * 4)) else (0, (t - 1 / 8) * 4, 1)) else (0, 0, 0.5 + t * 4)) else (0, 0, 0.5) := by
    funext t
    unfold jet
    simp only [← not_le, ite_not]
  rw [e]
  refine Continuous.if_le (Continuous.if_le (Continuous.if_le (Continuous.if_le (Continuous.if_le (Continuous.if_le continuous_const ?_ continuous_const continuous_id ?_) ?_ continuous_const continuous_id ?_) ?_ continuous_const continuous_id ?_) ?_ continuous_const continuous_id ?_) ?_ continuous_const continuous_id ?_) continuous_const continuous_const continuous_id ?_
  all_goals first | fun_prop | (intro t ht; rw [← show _ = t from ht]; try norm_num)

theorem continu_mono : Continuous mono := by
  have e : mono = fun t => if 0 ≤ t then (if 1 ≤ t then ((0, 0, 0) : Rvb) else (1 - t, 1 - t, 1 - t)) else (1, 1, 1) := by
    funext t
    unfold mono
    simp only [← not_le, ite_not]
  rw [e]
  refine Continuous.if_le (Continuous.if_le continuous_const ?_ continuous_const continuous_id ?_) continuous_const continuous_const continuous_id ?_
  all_goals first | fun_prop | (intro t ht; rw [← show _ = t from ht]; try norm_num)

theorem continu_monoInv : Continuous monoInv := by
  have e : monoInv = fun t => if 0 ≤ t then (if 1 ≤ t then ((1, 1, 1) : Rvb) else (t, t, t)) else (0, 0, 0) := by
    funext t
    unfold monoInv
    simp only [← not_le, ite_not]
  rw [e]
  refine Continuous.if_le (Continuous.if_le continuous_const ?_ continuous_const continuous_id ?_) continuous_const continuous_const continuous_id ?_
  all_goals first | fun_prop | (intro t ht; rw [← show _ = t from ht]; try norm_num)

/-- **C190 (continuity).** Every documented map but `mono-per` is a continuous function of its argument. -/
theorem C190_continu (nom : String) (h : nom ∈ noms) (hp : nom ≠ "mono-per") : ∃ f : ℝ → Rvb, Continuous f ∧ ∀ t, carte nom t = some (f t) := by
  simp only [noms, List.mem_cons, List.not_mem_nil, or_false] at h
  rcases h with rfl | rfl | rfl | rfl | rfl | rfl | rfl
  · exact ⟨mono, continu_mono, fun t => rfl⟩
  · exact ⟨monoInv, continu_monoInv, fun t => rfl⟩
  · exact absurd rfl hp
  · exact continu_ilin hsv (by simp [hsv]) croissant_hsv
  · exact ⟨jet, continu_jet, fun t => rfl⟩
  · exact continu_ilin parula (by simp [parula]) croissant_parula
  · exact continu_ilin pm (by simp [pm]) croissant_pm

/-- **C190, violated for `mono-per`.** Just below 0 the map is white, at 0 it is black. -/
theorem C190_continu_refute : (∀ t, t < 0 → carte "mono-per" t = some (1, 1, 1)) ∧ carte "mono-per" 0 = some (0, 0, 0) := by
  constructor
  · intro t ht
    rw [show carte "mono-per" t = some (monoPer t) from rfl, monoPer, if_pos ht]
  · rw [show carte "mono-per" 0 = some (monoPer 0) from rfl, monoPer]
    norm_num

/-- **C190 (complement and period).** `mono-inv` is the negative of `mono`; `hsv` and `mono-per` have the same colour at both ends; `mono-per` is symmetric on [0, 1]. -/
theorem C190_relations (t : ℝ) :
    (∃ u v : ℝ, carte "mono" t = some (u, u, u) ∧ carte "mono-inv" t = some (v, v, v) ∧ u + v = 1) ∧ carte "hsv" 0 = carte "hsv" 1 ∧ (0 ≤ t → t ≤ 1 → carte "mono-per" t = carte "mono-per" (1 - t)) := by
  refine ⟨?_, ?_, ?_⟩
  · rw [show carte "mono" t = some (mono t) from rfl, show carte "mono-inv" t = some (monoInv t) from rfl, mono, monoInv]
    split_ifs
    · exact ⟨1, 0, rfl, rfl, by norm_num⟩
    · exact ⟨1 - t, t, rfl, rfl, by ring⟩
    · exact ⟨0, 1, rfl, rfl, by norm_num⟩
  · rw [show carte "hsv" 0 = ilin hsv 0 from rfl, show carte "hsv" 1 = ilin hsv 1 from rfl, (C190_interpolation hsv (by simp [hsv]) croissant_hsv 0).2.1 (0 / 5, 1, 0, 0) (by simp [hsv]) (by norm_num),
      (C190_interpolation hsv (by simp [hsv]) croissant_hsv 1).2.2 (1, 1, 0, 0) (by simp [hsv]) (by norm_num)]
  · intro h0 h1
    have e : ∀ u : ℝ, 0 ≤ u → u ≤ 1 → monoPer u = if u ≤ 1 / 2 then (2 * u, 2 * u, 2 * u) else (2 - 2 * u, 2 - 2 * u, 2 - 2 * u) := by
      intro u hu0 hu1
      rw [monoPer, if_neg (not_lt.2 hu0), if_pos hu1, show (0.5 : ℝ) = 1 / 2 by norm_num, show 1 - 2 * (u - 1 / 2) = 2 - 2 * u by ring]
    rw [show carte "mono-per" t = some (monoPer t) from rfl, show carte "mono-per" (1 - t) = some (monoPer (1 - t)) from rfl, e t h0 h1, e (1 - t) (by linarith) (by linarith)]
    rcases lt_trichotomy t (1 / 2) with h | h | h
    · rw [if_pos h.le, if_neg (by linarith), show 2 - 2 * (1 - t) = 2 * t by ring]
    · subst h; norm_num
    · rw [if_neg (by linarith), if_pos (by linarith), show 2 * (1 - t) = 2 - 2 * t by ring]

/-- **C190 (unknown names).** -/
theorem C190_inconnue (nom : String) (t : ℝ) (h : nom ∉ noms) : carte nom t = none := by
  simp only [noms, List.mem_cons, List.not_mem_nil, or_false, not_or] at h
  obtain ⟨h1, h2, h3, h4, h5, h6, h7⟩ := h
  simp only [carte, if_neg h1, if_neg h2, if_neg h3, if_neg h4, if_neg h5, if_neg h6, if_neg h7]

/-- The jet map goes from dark blue to dark red through cyan, green-yellow and orange. -/
example : carte "jet" (1 / 4) = some (0, 1 / 2, 1) ∧ "jet" ∈ noms := by
  constructor
  · rw [show carte "jet" (1 / 4) = some (jet (1 / 4)) from rfl, jet]; norm_num
  · simp [noms]

example : Croissant hsv ∧ 2 ≤ hsv.length := ⟨croissant_hsv, by simp [hsv]⟩

end Verif.Cmap
