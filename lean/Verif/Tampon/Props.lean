import Verif.Tampon.Model
import Mathlib.Tactic.Ring

/-! # C17: the packet buffer re-chunks a stream losslessly -/

namespace Verif.Tampon

/-- Specification: the successive full packets of `N` samples of a stream. -/
def paquets {T : Type} (N : Nat) (x : List T) : List (List T) :=
  (List.range (x.length / N)).map fun k => (x.drop (k * N)).take N

theorem paquets_append {T : Type} (N : Nat) (hN : 0 < N) (a b : List T) (q : Nat) (ha : a.length = q * N) :
    paquets N (a ++ b) = paquets N a ++ paquets N b := by
  unfold paquets
  rw [List.length_append, ha, Nat.mul_comm q N, Nat.mul_add_div hN, Nat.mul_div_cancel_left _ hN, List.range_add, List.map_append,
    List.map_map]
  congr 1
  · refine List.map_congr_left fun k hk => ?_
    have hk := List.mem_range.1 hk
    have h1 : (k + 1) * N ≤ q * N := Nat.mul_le_mul_right N hk
    rw [Nat.add_mul, Nat.one_mul] at h1
    rw [List.drop_append_of_le_length (by omega), List.take_append_of_le_length (by simp; omega)]
  · refine List.map_congr_left fun k _ => ?_
    simp only [Function.comp]
    rw [Nat.add_mul, List.drop_append, List.drop_of_length_le (by omega), ha]
    simp

theorem paquets_court {T : Type} (N : Nat) (a : List T) (h : a.length < N) : paquets N a = [] := by
  unfold paquets; rw [Nat.div_eq_of_lt h]; rfl

theorem paquets_un {T : Type} (N : Nat) (hN : 0 < N) (a : List T) (h : a.length = N) : paquets N a = [a] := by
  unfold paquets; rw [h, Nat.div_self hN]; simp [← h]

/-- The state after input history `h`. -/
def Rep {T : Type} (N : Nat) (s : Tampon T) (h : List T) : Prop :=
  ∃ a r q, h = a ++ r ∧ a.length = q * N ∧ r.length < N ∧ s.N = N ∧ s.windex = r.length ∧ s.tampon.take s.windex = r ∧
    (s.tampon.length = N ∨ s.tampon = [])

theorem copie_rep {T : Type} (N : Nat) (hN : 0 < N) (x : List T) : ∀ (fuel i : Nat) (s : Tampon T) (h : List T),
    x.length - i < fuel → i ≤ x.length → Rep N s h → s.tampon.length = N →
    ∃ s' p, Tampon.copie x fuel i s = some (s', p) ∧ Rep N s' (h ++ x.drop i) ∧ s'.tampon.length = N ∧
      paquets N (h ++ x.drop i) = paquets N h ++ p := by
  intro fuel
  induction fuel with
  | zero => intro i s h hf; omega
  | succ fuel ih =>
    intro i s h hf hi hr hl
    obtain ⟨a, r, q, e1, e2, e3, e4, e5, e6, e7⟩ := hr
    unfold Tampon.copie
    by_cases hlt : i < x.length
    · rw [if_pos hlt]
      simp only
      by_cases hw : s.windex + x.length - i ≥ s.N
      · rw [if_pos hw, if_pos (by omega), if_pos rfl]
        generalize hu : (x.drop i).take (s.N - s.windex) = u
        have hul : u.length = N - r.length := by rw [← hu]; simp; omega
        have hbuf : s.tampon.take s.windex ++ u ++ s.tampon.drop (s.windex + (s.N - s.windex)) = r ++ u := by
          rw [e6, List.drop_of_length_le (by omega), List.append_nil]
        have hsplit : x.drop i = u ++ x.drop (i + (s.N - s.windex)) := by
          rw [← hu, ← List.drop_drop, List.take_append_drop]
        rw [hbuf]
        have hrl : (r ++ u).length = N := by simp [hul]; omega
        obtain ⟨s', p, c1, c2, c3, c4⟩ := ih (i + (s.N - s.windex)) { s with windex := 0, tampon := r ++ u } (h ++ u)
          (by omega) (by omega)
          ⟨a ++ (r ++ u), [], q + 1, by rw [e1]; simp, by simp only [List.length_append, e2] at hrl ⊢; rw [hrl]; ring,
            by simpa using hN, e4, rfl, rfl, Or.inl hrl⟩ hrl
        refine ⟨s', (r ++ u) :: p, by rw [c1], ?_, c3, ?_⟩
        · rw [hsplit, ← List.append_assoc]; exact c2
        · rw [hsplit, ← List.append_assoc, c4, e1, List.append_assoc, paquets_append N hN a _ q e2,
            paquets_append N hN a r q e2, paquets_un N hN _ hrl, paquets_court N r e3]
          simp
      · rw [if_neg hw, if_pos (by omega), if_neg (by omega)]
        have hn : s.windex + x.length - i - s.windex = x.length - i := by omega
        rw [hn]
        generalize hu : (x.drop i).take (x.length - i) = u
        have hu' : u = x.drop i := by rw [← hu]; exact List.take_of_length_le (by simp)
        have hul : u.length = x.length - i := by rw [hu']; simp
        obtain ⟨s', p, c1, c2, c3, c4⟩ := ih (i + (x.length - i))
          { s with
            windex := s.windex + x.length - i
            tampon := s.tampon.take s.windex ++ u ++ s.tampon.drop (s.windex + (x.length - i)) } (h ++ u)
          (by omega) (by omega)
          ⟨a, r ++ u, q, by rw [e1]; simp, e2, by simp [hul]; omega, e4, by simp [hul]; omega, by
            simp only [e6]
            rw [List.take_append_of_le_length (by simp [hul]; omega), List.take_of_length_le (by simp [hul]; omega)],
            Or.inl (by simp [e6, hul]; omega)⟩ (by simp [e6, hul]; omega)
        rw [show i + (x.length - i) = x.length by omega, List.drop_length, List.append_nil] at c2 c4
        rw [show i + (x.length - i) = x.length by omega] at c1
        refine ⟨s', p, by rw [show i + (x.length - i) = x.length by omega]; exact c1, by rw [← hu']; exact c2, c3, ?_⟩
        rw [← hu', c4, e1, List.append_assoc, paquets_append N hN a _ q e2, paquets_append N hN a r q e2,
          paquets_court N r e3, paquets_court N (r ++ u) (by simp [hul]; omega)]
    · rw [if_neg hlt, List.drop_of_length_le (by omega)]
      exact ⟨s, [], rfl, by rw [List.append_nil]; exact ⟨a, r, q, e1, e2, e3, e4, e5, e6, e7⟩, hl, by simp⟩

theorem step_rep {T : Type} (zero : T) (N : Nat) (hN : 0 < N) (s : Tampon T) (h x : List T) (hr : Rep N s h) :
    ∃ s' p, Tampon.step zero s x = some (s', p) ∧ Rep N s' (h ++ x) ∧ paquets N (h ++ x) = paquets N h ++ p := by
  have hr0 := hr
  obtain ⟨a, r, q, e1, e2, e3, e4, e5, e6, e7⟩ := hr
  unfold Tampon.step
  by_cases hd : s.windex = 0 ∧ x.length = s.N
  · rw [if_pos hd]
    have r0 : r = [] := List.length_eq_zero_iff.1 (by omega)
    subst r0
    refine ⟨s, [x], rfl, ⟨a ++ x, [], q + 1, by rw [e1]; simp, by rw [List.length_append, e2, hd.2, e4]; ring, by simpa using hN, e4,
      by rw [hd.1]; rfl, by rw [hd.1]; rfl, e7⟩, ?_⟩
    rw [e1, List.append_nil, paquets_append N hN a x q e2, paquets_un N hN x (by omega)]
  · rw [if_neg hd]
    simp only
    generalize hs : (if s.tampon.length = 0 ∧ 0 < s.N then { s with tampon := List.replicate s.N zero } else s) = s1
    have : Rep N s1 h ∧ s1.tampon.length = N := by
      rw [← hs]
      split
      · rename_i hz
        have w0 : r.length = 0 := by
          have := congrArg List.length e6
          simp [hz.1] at this; omega
        refine ⟨⟨a, r, q, e1, e2, e3, e4, e5, ?_, Or.inl (by simp [e4])⟩, by simp [e4]⟩
        have r0 : r = [] := List.length_eq_zero_iff.1 w0
        simp [e5, r0]
      · rename_i hz
        refine ⟨hr0, ?_⟩
        rcases e7 with h7 | h7
        · exact h7
        · exfalso; apply hz; simp [h7]; omega
    obtain ⟨s', p, c1, c2, _, c4⟩ := copie_rep N hN x (2 * x.length + 2) 0 s1 h (by omega) (by omega) this.1 this.2
    rw [List.drop_zero] at c2 c4
    exact ⟨s', p, c1, c2, c4⟩

theorem flux_rep {T : Type} (zero : T) (N : Nat) (hN : 0 < N) (blocs : List (List T)) : ∀ (s : Tampon T) (h : List T),
    Rep N s h → ∃ s' p, Tampon.flux zero s blocs = some (s', p) ∧ Rep N s' (h ++ blocs.flatten) ∧
      paquets N (h ++ blocs.flatten) = paquets N h ++ p := by
  induction blocs with
  | nil => intro s h hr; exact ⟨s, [], rfl, by simpa using hr, by simp⟩
  | cons b bs ih =>
    intro s h hr
    obtain ⟨s1, p1, e1, r1, k1⟩ := step_rep zero N hN s h b hr
    obtain ⟨s2, p2, e2, r2, k2⟩ := ih s1 _ r1
    rw [List.append_assoc] at r2 k2
    exact ⟨s2, p1 ++ p2, by simp only [Tampon.flux, e1, e2], by simpa using r2,
      by rw [List.flatten_cons, k2, k1, List.append_assoc]⟩

theorem rep_vide {T : Type} (N : Nat) (hN : 0 < N) (s : Tampon T) (h1 : s.N = N) (h2 : s.windex = 0)
    (h3 : s.tampon.length = N ∨ s.tampon = []) : Rep N s [] :=
  ⟨[], [], 0, rfl, by simp, by simpa using hN, h1, h2, by rw [h2]; rfl, h3⟩

/-- **C17.** For every packet size `N ≥ 1` and every list of input chunks (of any sizes, including empty): no failure, the
packets delivered so far are exactly the successive full packets of the concatenated input, and the buffer holds exactly
the remaining `length % N` samples.  As the list of chunks is arbitrary, this holds after each call: every packet is delivered by the
call that completes it. -/
theorem C17_paquets {T : Type} (zero : T) (N : Nat) (hN : 0 < N) (blocs : List (List T)) :
    ∃ s, Tampon.flux zero (Tampon.init N) blocs = some (s, paquets N blocs.flatten) ∧
      s.windex = blocs.flatten.length % N ∧ s.windex < N ∧
      s.tampon.take s.windex = blocs.flatten.drop (blocs.flatten.length / N * N) := by
  obtain ⟨s, p, e, hr, k⟩ := flux_rep zero N hN blocs (Tampon.init N) [] (rep_vide N hN _ rfl rfl (Or.inr rfl))
  simp only [List.nil_append] at hr k
  rw [show paquets N ([] : List T) = [] from paquets_court N [] (by simpa using hN), List.nil_append] at k
  obtain ⟨a, r, q, e1, e2, e3, e4, e5, e6, e7⟩ := hr
  have hlen : blocs.flatten.length = q * N + r.length := by rw [e1, List.length_append, e2]
  refine ⟨s, by rw [e, k], ?_, by omega, ?_⟩
  · rw [hlen, e5, Nat.mul_comm, Nat.mul_add_mod, Nat.mod_eq_of_lt e3]
  · rw [hlen, e6, Nat.mul_comm q N, Nat.mul_add_div hN, Nat.div_eq_of_lt e3, Nat.add_zero, e1, ← e2,
      List.drop_left]

/-- Nothing is lost or duplicated: the packets followed by the retained samples are the input. -/
theorem C17_sans_perte {T : Type} (zero : T) (N : Nat) (hN : 0 < N) (blocs : List (List T)) :
    ∃ s p, Tampon.flux zero (Tampon.init N) blocs = some (s, p) ∧ (∀ q ∈ p, q.length = N) ∧
      p.flatten ++ s.tampon.take s.windex = blocs.flatten := by
  obtain ⟨s, e, h1, h2, h3⟩ := C17_paquets zero N hN blocs
  refine ⟨s, _, e, ?_, ?_⟩
  · intro q hq
    simp only [paquets, List.mem_map, List.mem_range] at hq
    obtain ⟨k, hk, rfl⟩ := hq
    have : (k + 1) * N ≤ blocs.flatten.length / N * N := Nat.mul_le_mul_right N hk
    have h4 := Nat.div_mul_le_self blocs.flatten.length N
    rw [Nat.add_mul, Nat.one_mul] at this
    simp only [List.length_take, List.length_drop]
    omega
  · rw [h3]
    have key : ∀ m (x : List T), m * N ≤ x.length →
        (((List.range m).map fun k => (x.drop (k * N)).take N).flatten) = x.take (m * N) := by
      intro m
      induction m with
      | zero => intro x _; simp
      | succ m ih =>
        intro x hx
        rw [Nat.add_mul, Nat.one_mul] at hx
        rw [List.range_succ, List.map_append, List.flatten_append, ih x (by omega), Nat.add_mul, Nat.one_mul, List.take_add]
        simp
    unfold paquets
    rw [key _ _ (Nat.div_mul_le_self _ _), List.take_append_drop]

/-- Reconfiguration with the same packet size (or before the internal storage was allocated) restarts cleanly: the pending
samples are dropped and the following stream is packetised exactly. -/
theorem C17_reconfigure_partial {T : Type} (zero : T) (N : Nat) (hN : 0 < N) (s : Tampon T)
    (hs : s.tampon.length = N ∨ s.tampon = []) (blocs : List (List T)) :
    ∃ s', Tampon.flux zero (s.configure N) blocs = some (s', paquets N blocs.flatten) := by
  obtain ⟨s', p, e, hr, k⟩ := flux_rep zero N hN blocs (s.configure N) [] (rep_vide N hN _ rfl rfl hs)
  simp only [List.nil_append] at k
  rw [show paquets N ([] : List T) = [] from paquets_court N [] (by simpa using hN), List.nil_append] at k
  exact ⟨s', by rw [e, k]⟩

/-- Reconfiguring to a smaller size after use: the packets delivered have the old size and contain stale samples. -/
theorem C17_reconfigure_refute :
    ∃ s s', Tampon.flux 0 (Tampon.init 3) [[1], [2, 3]] = some (s, [[1, 2, 3]]) ∧
      Tampon.flux 0 (s.configure 2) [[4], [5]] = some (s', [[4, 5, 3]]) ∧ paquets 2 [4, 5] = [[4, 5]] :=
  ⟨⟨3, 0, [1, 2, 3]⟩, ⟨2, 0, [4, 5, 3]⟩, rfl, rfl, rfl⟩

/-- Reconfiguring to a larger size after use: the first call that would fill beyond the old storage fails. -/
theorem C17_reconfigure_agrandi_refute :
    ∃ s, Tampon.flux 0 (Tampon.init 2) [[1], [2]] = some (s, [[1, 2]]) ∧
      Tampon.flux 0 (s.configure 4) [[1, 2, 3]] = none :=
  ⟨⟨2, 0, [1, 2]⟩, rfl, rfl⟩

/-- A packet size of 0 never terminates on a non-empty input: no amount of iterations is enough. -/
theorem C17_taille_nulle_refute {T : Type} (x : T) (xs : List T) : ∀ fuel (s : Tampon T), s.N = 0 → s.windex = 0 →
    Tampon.copie (x :: xs) fuel 0 s = none := by
  intro fuel
  induction fuel with
  | zero => intro s _ _; rfl
  | succ fuel ih =>
    intro s h1 h2
    unfold Tampon.copie
    simp only [h1, h2, List.length_cons, Nat.zero_lt_succ, if_true, ge_iff_le, Nat.zero_le, Nat.sub_zero]
    rw [ih _ rfl rfl]
    simp

example : (0 : Nat) < 3 ∧ paquets 3 ([[1], [], [2, 3, 4, 5], [6, 7]] : List (List Nat)).flatten = [[1, 2, 3], [4, 5, 6]] := by decide

end Verif.Tampon
