import Verif.Filtre.Lemmas

/-! Simulation of the streaming filters by functions of the whole input history. -/

namespace Verif.Filtre

/-- A sample loop whose state represents the input history `h` and whose output is a function of the history. -/
theorem boucle_hist {S X Y : Type} (f : S → X → Option (S × Y)) (Rep : S → List X → Prop) (out : List X → Y)
    (hstep : ∀ s h x, Rep s h → ∃ s', f s x = some (s', out (h ++ [x])) ∧ Rep s' (h ++ [x]))
    (xs : List X) : ∀ s h, Rep s h → ∃ s' ys, boucle f s xs = some (s', ys) ∧ Rep s' (h ++ xs) ∧
      ys.length = xs.length ∧ ∀ n, n < xs.length → ys[n]? = some (out (h ++ xs.take (n + 1))) := by
  induction xs with
  | nil => intro s h hr; exact ⟨s, [], rfl, by simpa using hr, rfl, fun n hn => by simp at hn⟩
  | cons x xs ih =>
    intro s h hr
    obtain ⟨s1, e1, r1⟩ := hstep s h x hr
    obtain ⟨s2, ys, e2, r2, l2, o2⟩ := ih s1 (h ++ [x]) r1
    refine ⟨s2, out (h ++ [x]) :: ys, ?_, by simpa using r2, by simp [l2], ?_⟩
    · simp [boucle, e1, e2]
    · intro n hn
      cases n with
      | zero => simp
      | succ n =>
        rw [List.getElem?_cons_succ, o2 n (by simpa using hn)]
        simp

/-! ### FIR -/

/-- The FIR state after input history `h`. -/
def Rif.Rep {T C : Type} (zero : T) (c : List C) (s : Rif T C) (h : List T) : Prop :=
  s.K = c.length ∧ s.coefs = c ∧ s.fen.length = c.length ∧ s.index < c.length ∧
  tourne s.fen s.index = derniers zero c.length h

theorem Rif.rep_init {T C : Type} (zero : T) (c : List C) (hc : 0 < c.length) : Rif.Rep zero c (Rif.init zero c) [] := by
  refine ⟨rfl, rfl, by simp [Rif.init], by simpa [Rif.init] using hc, ?_⟩
  simp [Rif.init, tourne, derniers]

theorem Rif.rep_ech {T C : Type} (zero : T) (add : T → T → T) (mul : T → C → T) (c : List C)
    (s : Rif T C) (h : List T) (x : T) (hr : Rif.Rep zero c s h) :
    ∃ s', Rif.ech zero add mul s x = some (s', mac add mul zero (derniers zero c.length (h ++ [x])) c.reverse) ∧
      Rif.Rep zero c s' (h ++ [x]) := by
  obtain ⟨hK, hc, hf, hi, ht⟩ := hr
  have hc0 : 0 < c.length := by omega
  have htour : tourne (s.fen.set s.index x) ((s.index + 1) % c.length) = derniers zero c.length (h ++ [x]) := by
    rw [← hf, tourne_set _ _ _ (by omega), ht, ← derniers_snoc _ _ _ _ hc0, hf]
  have hlt : (s.index + 1) % c.length < c.length := Nat.mod_lt _ hc0
  obtain ⟨s1, ci, r, e1, e2, e3⟩ := macDesc_deux add mul (s.fen.set s.index x) c ((s.index + 1) % c.length) zero
    (by simp [hf]) (by simp only [List.length_set, hf]; omega)
  refine ⟨{ s with fen := s.fen.set s.index x, index := (s.index + 1) % c.length }, ?_, hK, hc, by simp [hf], hlt, htour⟩
  unfold Rif.ech
  rw [if_neg (by omega), if_pos (by omega), hK, hc]
  simp only [e1, e2, e3, htour]

/-! ### Delay line -/

/-- The delay-line state after input history `h`. -/
def Retard.Rep {T : Type} (zero : T) (r : Nat) (s : Retard T) (h : List T) : Prop :=
  s.retard = r ∧ s.fenetre.length = r ∧ s.ri < r ∧ tourne s.fenetre s.ri = derniers zero r h

theorem Retard.rep_ech {T : Type} (zero : T) (r : Nat) (s : Retard T) (h : List T) (x : T) (hr : Retard.Rep zero r s h) :
    ∃ s', Retard.ech s x = some (s', (derniers zero (r + 1) (h ++ [x])).headD zero) ∧ Retard.Rep zero r s' (h ++ [x]) := by
  obtain ⟨hR, hf, hi, ht⟩ := hr
  have h0 : 0 < r := by omega
  have hfirst : s.fenetre[s.ri]? = some ((derniers zero (r + 1) (h ++ [x])).headD zero) := by
    have e0 := tourne_getElem? s.fenetre s.ri 0 (by omega) (by omega)
    rw [Nat.add_zero, Nat.mod_eq_of_lt (by omega), ht, derniers_getElem? _ _ _ _ h0] at e0
    rw [← e0]
    have e1 := derniers_getElem? zero (r + 1) (h ++ [x]) 0 (by omega)
    cases hd : derniers zero (r + 1) (h ++ [x]) with
    | nil => rw [hd] at e1; simp at e1
    | cons a l =>
      rw [hd] at e1
      simp only [List.getElem?_cons_zero, Option.some.injEq] at e1
      rw [List.headD_cons, e1]
      simp only [List.length_append, List.length_singleton, Nat.add_zero, Nat.add_le_add_iff_right, Nat.add_sub_add_right]
      congr 1
      split
      · rename_i hh
        rw [List.getD_eq_getElem?_getD, List.getD_eq_getElem?_getD, List.getElem?_append_left (by omega)]
      · rfl
  refine ⟨{ s with fenetre := s.fenetre.set s.ri x, ri := (s.ri + 1) % r }, ?_, hR, by simp [hf], Nat.mod_lt _ h0, ?_⟩
  · unfold Retard.ech
    rw [hfirst]
    simp only [hR]
    rw [if_neg (by omega)]
  · show tourne (s.fenetre.set s.ri x) ((s.ri + 1) % r) = _
    conv_lhs => rw [← hf]
    rw [tourne_set _ _ _ (by omega), ht, ← derniers_snoc _ _ _ _ h0]

/-! ### IIR -/

/-- State of the non-recursive pass. -/
def Rii.RepX {T C : Type} (zero : T) (b a : List C) (s : Rii T C) (hx : List T) : Prop :=
  s.Kx = b.length ∧ s.numer = b ∧ s.denom = a ∧ s.Ky = a.length - 1 ∧ s.wndx.length = b.length ∧ s.index < b.length ∧
  tourne s.wndx s.index = derniers zero b.length hx

/-- State of the recursive pass. -/
def Rii.RepY {T C : Type} (zero : T) (b a : List C) (s : Rii T C) (hy : List T) : Prop :=
  s.numer = b ∧ s.denom = a ∧ s.Ky = a.length - 1 ∧ s.wndy.length = a.length - 1 ∧ s.indexY < a.length - 1 ∧
  tourne s.wndy s.indexY = (derniers zero (a.length - 1) hy).reverse

/-- Output of the non-recursive pass for an input history. -/
def Rii.outX {T C : Type} (zero : T) (add : T → T → T) (mul : T → C → T) (b : List C) (hx : List T) : T :=
  mac add mul zero (derniers zero b.length hx) b.reverse

/-- Output of the recursive pass. -/
def Rii.outY {T C : Type} (zero : T) (sub : T → T → T) (mul div : T → C → T) (a0 : C) (a : List C) (hy : List T) (v : T) : T :=
  div (mac sub mul v (derniers zero a.length hy).reverse a) a0

theorem Rii.rep_echX {T C : Type} (zero : T) (add : T → T → T) (mul : T → C → T) (b a : List C)
    (s : Rii T C) (hx hy : List T) (x : T) (hr : Rii.RepX zero b a s hx) (hr' : Rii.RepY zero b a s hy) :
    ∃ s', Rii.echX zero add mul s x = some (s', Rii.outX zero add mul b (hx ++ [x])) ∧
      Rii.RepX zero b a s' (hx ++ [x]) ∧ Rii.RepY zero b a s' hy := by
  obtain ⟨hK, hc, hd, hKy, hf, hi, ht⟩ := hr
  have hc0 : 0 < b.length := by omega
  have htour : tourne (s.wndx.set s.index x) ((s.index + 1) % b.length) = derniers zero b.length (hx ++ [x]) := by
    rw [← hf, tourne_set _ _ _ (by omega), ht, ← derniers_snoc _ _ _ _ hc0, hf]
  have hlt : (s.index + 1) % b.length < b.length := Nat.mod_lt _ hc0
  obtain ⟨s1, ci, r, e1, e2, e3⟩ := macDesc_deux add mul (s.wndx.set s.index x) b ((s.index + 1) % b.length) zero
    (by simp [hf]) (by simp only [List.length_set, hf]; omega)
  refine ⟨{ s with wndx := s.wndx.set s.index x, index := (s.index + 1) % b.length }, ?_,
    ⟨hK, hc, hd, hKy, by simp [hf], hlt, htour⟩, hr'⟩
  unfold Rii.echX
  rw [if_neg (by omega), if_pos (by omega), hK, hc]
  simp only [e1, e2, e3, htour, Rii.outX]

theorem Rii.rep_echY {T C : Type} (zero : T) (sub : T → T → T) (mul div : T → C → T) (b : List C) (a0 : C) (a : List C)
    (s : Rii T C) (hx hy : List T) (v : T) (hr' : Rii.RepX zero b (a0 :: a) s hx) (hr : Rii.RepY zero b (a0 :: a) s hy) :
    ∃ s', Rii.echY sub mul div s v = some (s', Rii.outY zero sub mul div a0 a hy v) ∧
      Rii.RepX zero b (a0 :: a) s' hx ∧ Rii.RepY zero b (a0 :: a) s' (hy ++ [Rii.outY zero sub mul div a0 a hy v]) := by
  obtain ⟨hb, hd, hKy, hl, hi, ht⟩ := hr
  simp only [List.length_cons, Nat.add_sub_cancel] at hKy hl hi ht
  have ha0 : 0 < a.length := by omega
  have e1 := macAsc_eq sub mul s.wndy s.denom (a.length - s.indexY) s.indexY 1 v (by omega) (by rw [hd]; simp; omega)
  have e2 := macAsc_eq sub mul s.wndy s.denom (a.length - (a.length - s.indexY)) 0 (1 + (a.length - s.indexY))
    (mac sub mul v ((s.wndy.drop s.indexY).take (a.length - s.indexY)) ((s.denom.drop 1).take (a.length - s.indexY)))
    (by omega) (by rw [hd]; simp; omega)
  have hsum : mac sub mul (mac sub mul v ((s.wndy.drop s.indexY).take (a.length - s.indexY))
      ((s.denom.drop 1).take (a.length - s.indexY)))
      ((s.wndy.drop 0).take (a.length - (a.length - s.indexY)))
      ((s.denom.drop (1 + (a.length - s.indexY))).take (a.length - (a.length - s.indexY))) =
      mac sub mul v (derniers zero a.length hy).reverse a := by
    have k1 : a.length - (a.length - s.indexY) = s.indexY := by omega
    rw [k1, List.drop_zero, hd, List.drop_one, List.tail_cons, Nat.add_comm 1, List.drop_succ_cons]
    have k2 : (s.wndy.drop s.indexY).take (a.length - s.indexY) = s.wndy.drop s.indexY :=
      List.take_of_length_le (by simp; omega)
    have k3 : (a.drop (a.length - s.indexY)).take s.indexY = a.drop (a.length - s.indexY) :=
      List.take_of_length_le (by simp; omega)
    rw [k2, k3, ← mac_append _ _ _ _ _ _ _ (by simp; omega), List.take_append_drop]
    have : s.wndy.drop s.indexY ++ s.wndy.take s.indexY = tourne s.wndy s.indexY := rfl
    rw [this, ht]
  have hmod : (s.indexY + a.length - 1) % a.length < a.length := Nat.mod_lt _ ha0
  refine ⟨{ s with
      wndy := s.wndy.set ((s.indexY + a.length - 1) % a.length) (Rii.outY zero sub mul div a0 a hy v)
      indexY := (s.indexY + a.length - 1) % a.length }, ?_, hr', hb, hd, hKy, by simp [hl], hmod, ?_⟩
  · unfold Rii.echY
    have hd0 : s.denom[0]? = some a0 := by rw [hd]; rfl
    simp only [hKy, e1, e2, hd0, hsum]
    rw [if_neg (by omega), if_pos (by omega)]
    rfl
  · simp only [List.length_cons, Nat.add_sub_cancel]
    have := tourne_set_back s.wndy s.indexY (Rii.outY zero sub mul div a0 a hy v) (by omega)
    rw [hl] at this
    rw [this, ht, derniers_snoc _ _ _ _ ha0, List.reverse_append]
    simp [List.dropLast_reverse]

/-- The IIR filter as a function of the whole history: the next outputs after input history `hx` and output history
`hy`. -/
def Rii.pur {T C : Type} (zero : T) (add sub : T → T → T) (mul div : T → C → T) (b : List C) (a0 : C) (a : List C) :
    List T → List T → List T → List T
  | _, _, [] => []
  | hx, hy, x :: xs =>
    let y := Rii.outY zero sub mul div a0 a hy (Rii.outX zero add mul b (hx ++ [x]))
    y :: Rii.pur zero add sub mul div b a0 a (hx ++ [x]) (hy ++ [y]) xs

theorem Rii.pur_append {T C : Type} (zero : T) (add sub : T → T → T) (mul div : T → C → T) (b : List C) (a0 : C) (a : List C)
    (u v : List T) : ∀ hx hy, Rii.pur zero add sub mul div b a0 a hx hy (u ++ v) =
      Rii.pur zero add sub mul div b a0 a hx hy u ++
      Rii.pur zero add sub mul div b a0 a (hx ++ u) (hy ++ Rii.pur zero add sub mul div b a0 a hx hy u) v := by
  induction u with
  | nil => intro hx hy; simp [Rii.pur]
  | cons x u ih =>
    intro hx hy
    simp only [List.cons_append, Rii.pur, ih]
    simp

theorem Rii.step_pur {T C : Type} (zero : T) (add sub : T → T → T) (mul div : T → C → T) (b : List C) (a0 : C) (a : List C)
    (s : Rii T C) (hx hy xs : List T) (hX : Rii.RepX zero b (a0 :: a) s hx) (hY : Rii.RepY zero b (a0 :: a) s hy) :
    ∃ s', Rii.step zero add sub mul div s xs = some (s', Rii.pur zero add sub mul div b a0 a hx hy xs) ∧
      Rii.RepX zero b (a0 :: a) s' (hx ++ xs) ∧
      Rii.RepY zero b (a0 :: a) s' (hy ++ Rii.pur zero add sub mul div b a0 a hx hy xs) := by
  -- first pass
  have p1 : ∀ (xs : List T) s hx, Rii.RepX zero b (a0 :: a) s hx → Rii.RepY zero b (a0 :: a) s hy →
      ∃ s' vs, boucle (Rii.echX zero add mul) s xs = some (s', vs) ∧ Rii.RepX zero b (a0 :: a) s' (hx ++ xs) ∧
        Rii.RepY zero b (a0 :: a) s' hy ∧
        vs = (List.range xs.length).map (fun i => Rii.outX zero add mul b (hx ++ xs.take (i + 1))) := by
    intro xs
    induction xs with
    | nil => intro s hx h1 h2; exact ⟨s, [], rfl, by simpa using h1, h2, rfl⟩
    | cons x xs ih =>
      intro s hx h1 h2
      obtain ⟨s1, e1, r1, r1'⟩ := Rii.rep_echX zero add mul b (a0 :: a) s hx hy x h1 h2
      obtain ⟨s2, vs, e2, r2, r2', hv⟩ := ih s1 (hx ++ [x]) r1 r1'
      refine ⟨s2, Rii.outX zero add mul b (hx ++ [x]) :: vs, by simp only [boucle, e1, e2], by simpa using r2, r2', ?_⟩
      rw [hv, List.length_cons, List.range_succ_eq_map, List.map_cons, List.map_map]
      simp [Function.comp_def]
  -- second pass
  have p2 : ∀ (vs : List T) s hxx hy, Rii.RepX zero b (a0 :: a) s hxx → Rii.RepY zero b (a0 :: a) s hy →
      ∃ s' ys, boucle (Rii.echY sub mul div) s vs = some (s', ys) ∧ Rii.RepX zero b (a0 :: a) s' hxx ∧
        Rii.RepY zero b (a0 :: a) s' (hy ++ ys) ∧
        ∀ hx xs, vs = (List.range xs.length).map (fun i => Rii.outX zero add mul b (hx ++ xs.take (i + 1))) →
          ys = Rii.pur zero add sub mul div b a0 a hx hy xs := by
    intro vs
    induction vs with
    | nil =>
      intro s hxx hy h1 h2
      refine ⟨s, [], rfl, h1, by simpa using h2, ?_⟩
      intro hx xs h
      cases xs with
      | nil => rfl
      | cons => simp [List.range_succ_eq_map] at h
    | cons v vs ih =>
      intro s hxx hy h1 h2
      obtain ⟨s1, e1, r1, r1'⟩ := Rii.rep_echY zero sub mul div b a0 a s hxx hy v h1 h2
      obtain ⟨s2, ys, e2, r2, r2', hp⟩ := ih s1 hxx _ r1 r1'
      refine ⟨s2, Rii.outY zero sub mul div a0 a hy v :: ys, by simp only [boucle, e1, e2], r2, by simpa using r2', ?_⟩
      intro hx xs h
      cases xs with
      | nil => simp at h
      | cons x xs =>
        rw [List.length_cons, List.range_succ_eq_map, List.map_cons, List.map_map] at h
        injection h with h1' h2'
        simp only [Rii.pur]
        simp only [Nat.zero_add, List.take_succ_cons, List.take_zero] at h1'
        rw [← h1']
        congr 1
        apply hp
        rw [h2']
        simp [Function.comp_def]
  obtain ⟨s1, vs, e1, r1, r1', hv⟩ := p1 xs s hx hX hY
  obtain ⟨s2, ys, e2, r2, r2', hp⟩ := p2 vs s1 (hx ++ xs) hy r1 r1'
  have hy' := hp hx xs hv
  refine ⟨s2, ?_, r2, by rw [← hy']; exact r2'⟩
  unfold Rii.step
  rw [e1]
  simp only [e2, hy']

theorem Rii.rep_init {T C : Type} (zero : T) (b : List C) (a0 : C) (a : List C) (hb : 0 < b.length) (ha : 0 < a.length) :
    ∃ s, Rii.init zero b (a0 :: a) = some s ∧ Rii.RepX zero b (a0 :: a) s [] ∧ Rii.RepY zero b (a0 :: a) s [] := by
  refine ⟨_, by simp [Rii.init]; rfl, ?_, ?_⟩
  · exact ⟨rfl, rfl, rfl, by simp, by simp, hb, by simp [tourne, derniers]⟩
  · exact ⟨rfl, rfl, by simp, by simp, by simpa using ha, by simp [tourne, derniers]⟩

/-! ### Composition and first-block initialisation -/

theorem decoupable_comp {S U X Y Z : Type} (f : Bloc S X Y) (g : Bloc U Y Z) (I : S → Prop) (J : U → Prop)
    (hf : Decoupable f I) (hg : Decoupable g J) :
    Decoupable (fun (p : S × U) x => match f p.1 x with
      | none => none
      | some (s', y) => match g p.2 y with
        | none => none
        | some (u', z) => some ((s', u'), z)) (fun p => I p.1 ∧ J p.2) := by
  refine ⟨?_, ?_, ?_⟩
  · rintro ⟨s, u⟩ ⟨h1, h2⟩
    simp [hf.1 s h1, hg.1 u h2]
  · rintro ⟨s, u⟩ a ⟨s', u'⟩ z ⟨h1, h2⟩ h
    simp only at h
    cases e : f s a with
    | none => simp [e] at h
    | some p =>
      obtain ⟨s1, y⟩ := p
      rw [e] at h
      simp only at h
      cases e2 : g u y with
      | none => simp [e2] at h
      | some q =>
        obtain ⟨u1, w⟩ := q
        rw [e2] at h
        simp only [Option.some.injEq, Prod.mk.injEq] at h
        obtain ⟨⟨rfl, rfl⟩, rfl⟩ := h
        exact ⟨hf.2.1 _ _ _ _ h1 e, hg.2.1 _ _ _ _ h2 e2⟩
  · rintro ⟨s, u⟩ a b ⟨h1, h2⟩
    simp only
    rw [hf.2.2 s a b h1]
    cases e : f s a with
    | none => rfl
    | some p =>
      obtain ⟨s1, y⟩ := p
      simp only
      cases e3 : f s1 b with
      | none => cases g u y <;> simp [e3]
      | some q =>
        obtain ⟨s2, y'⟩ := q
        simp only
        rw [hg.2.2 u y y' h2]
        cases e4 : g u y with
        | none => rfl
        | some r =>
          obtain ⟨u1, z⟩ := r
          simp only
          cases hh : g u1 y' <;> simp [e3, hh]

end Verif.Filtre
