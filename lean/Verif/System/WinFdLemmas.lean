import Verif.System.WinFd

set_option autoImplicit false

/-!
# Lemmas on descriptors on Windows

The invariant relates the table to the one before the call. `own` are the numbers that the channels hold.
-/

namespace Lolly.WinFd

/-- The end that the caller uses for direction `d`, of pipe `k`: it writes to `CHIN` and reads from `CHOUT`. -/
def endOf (d : Dir) (k : Nat) : Obj := match d with | .chin => .wr k | .chout => .rd k

/-- A channel with its direction and the number of its pipe. -/
structure G where
  c : Channel
  d : Dir
  k : Nat

def G.own (g : G) : List Nat := g.c.fd.toList ++ g.c.toBeClosed.toList ++ g.c.saved.toList

def own (gs : List G) : List Nat := gs.flatMap G.own

def origins (gs : List G) : List Nat := gs.filterMap fun g => g.c.origin

structure Inv (T0 : Table) (s : St) (gs : List G) : Prop where
  nodup : (own gs).Nodup
  fresh : ∀ x ∈ own gs, T0 x = none
  nodupO : (origins gs).Nodup
  openO : ∀ o ∈ origins gs, ∃ b, T0 o = some ⟨b, true⟩
  ids : (gs.map G.k).Nodup
  lt : ∀ g ∈ gs, g.k < s.pipes
  fd : ∀ g ∈ gs, ∀ x, g.c.fd = some x → s.tab x = some ⟨endOf g.d g.k, false⟩
  tbc : ∀ g ∈ gs, ∀ x, g.c.toBeClosed = some x → s.tab x = some ⟨endOf (other g.d) g.k, g.c.origin.isNone⟩
  sav : ∀ g ∈ gs, ∀ x, g.c.saved = some x → ∃ o b, g.c.origin = some o ∧ T0 o = some ⟨b, true⟩ ∧
    s.tab x = some ⟨b, true⟩ ∧ s.tab o = some ⟨endOf (other g.d) g.k, true⟩
  rest : ∀ x, x ∉ own gs → (∀ g ∈ gs, g.c.saved ≠ none → g.c.origin ≠ some x) → s.tab x = T0 x

theorem Inv.perm {T0 : Table} {s : St} {l m : List G} (p : l.Perm m) (h : Inv T0 s l) : Inv T0 s m where
  nodup := (p.flatMap_right _).nodup_iff.1 h.nodup
  fresh x hx := h.fresh x ((p.flatMap_right _).mem_iff.2 hx)
  nodupO := (p.filterMap _).nodup_iff.1 h.nodupO
  openO o ho := h.openO o ((p.filterMap _).mem_iff.2 ho)
  ids := (p.map _).nodup_iff.1 h.ids
  lt g hg := h.lt g (p.mem_iff.2 hg)
  fd g hg := h.fd g (p.mem_iff.2 hg)
  tbc g hg := h.tbc g (p.mem_iff.2 hg)
  sav g hg := h.sav g (p.mem_iff.2 hg)
  rest x hx hg := h.rest x (fun e => hx ((p.flatMap_right _).mem_iff.1 e)) fun g hm => hg g (p.mem_iff.1 hm)

theorem own_cons (g : G) (m : List G) : own (g :: m) = g.own ++ own m := rfl

theorem mem_own {g : G} {m : List G} (hg : g ∈ m) {x : Nat} (hx : x ∈ g.own) : x ∈ own m := List.mem_flatMap.2 ⟨g, hg, hx⟩

theorem mem_origins {g : G} {m : List G} (hg : g ∈ m) {x : Nat} (hx : g.c.origin = some x) : x ∈ origins m :=
  List.mem_filterMap.2 ⟨g, hg, hx⟩

theorem origin_not_own {T0 : Table} {s : St} {gs : List G} (h : Inv T0 s gs) {o : Nat} (ho : o ∈ origins gs) : o ∉ own gs := by
  intro hm
  obtain ⟨b, e⟩ := h.openO o ho
  rw [h.fresh o hm] at e; cases e

theorem origins_cons_some {g : G} {m : List G} {o : Nat} (h : g.c.origin = some o) : origins (g :: m) = o :: origins m := by
  simp [origins, h]

theorem origins_cons_none {g : G} {m : List G} (h : g.c.origin = none) : origins (g :: m) = origins m := by
  simp [origins, h]

/-- A step that changes one channel. -/
theorem inv_step {T0 : Table} {s s' : St} {c c' : Channel} {d : Dir} {k : Nat} {m : List G} (h : Inv T0 s (⟨c, d, k⟩ :: m))
    (ho : c'.origin = c.origin) (hp : s'.pipes = s.pipes)
    (hn : (G.own ⟨c', d, k⟩).Nodup) (hf : ∀ x ∈ G.own ⟨c', d, k⟩, x ∉ own m ∧ T0 x = none)
    (hm : ∀ x, x ∈ own m ∨ x ∈ origins m → s'.tab x = s.tab x)
    (h1 : ∀ x, c'.fd = some x → s'.tab x = some ⟨endOf d k, false⟩)
    (h2 : ∀ x, c'.toBeClosed = some x → s'.tab x = some ⟨endOf (other d) k, c.origin.isNone⟩)
    (h3 : ∀ x, c'.saved = some x → ∃ o b, c.origin = some o ∧ T0 o = some ⟨b, true⟩ ∧
      s'.tab x = some ⟨b, true⟩ ∧ s'.tab o = some ⟨endOf (other d) k, true⟩)
    (h4 : ∀ x, x ∉ G.own ⟨c', d, k⟩ → x ∉ own m → x ∉ origins m → (c'.saved ≠ none → c.origin ≠ some x) →
      s'.tab x = T0 x) (h5 : ∀ x ∈ origins m, s.tab x = s'.tab x ∧ c.origin ≠ some x) :
    Inv T0 s' (⟨c', d, k⟩ :: m) := by
  have hnd := h.nodup
  rw [own_cons, List.nodup_append] at hnd
  have horig : origins (⟨c', d, k⟩ :: m) = origins (⟨c, d, k⟩ :: m) := by
    simp only [origins, List.filterMap_cons, ho]
  refine ⟨?_, ?_, horig ▸ h.nodupO, horig ▸ h.openO, h.ids, ?_, ?_, ?_, ?_, ?_⟩
  · rw [own_cons, List.nodup_append]
    exact ⟨hn, hnd.2.1, fun a ha b hb e => (hf a ha).1 (e ▸ hb)⟩
  · intro x hx
    rw [own_cons] at hx
    rcases List.mem_append.1 hx with hx | hx
    · exact (hf x hx).2
    · exact h.fresh x (by rw [own_cons]; exact List.mem_append_right _ hx)
  · intro g hg
    rw [hp]
    rcases List.mem_cons.1 hg with rfl | hg
    · exact h.lt ⟨c, d, k⟩ List.mem_cons_self
    · exact h.lt g (List.mem_cons_of_mem _ hg)
  · intro g hg x hx
    rcases List.mem_cons.1 hg with rfl | hg
    · exact h1 x hx
    · rw [hm x (.inl (mem_own hg (by simp [G.own, hx])))]
      exact h.fd g (List.mem_cons_of_mem _ hg) x hx
  · intro g hg x hx
    rcases List.mem_cons.1 hg with rfl | hg
    · exact (h2 x hx).trans (by rw [ho])
    · rw [hm x (.inl (mem_own hg (by simp [G.own, hx])))]
      exact h.tbc g (List.mem_cons_of_mem _ hg) x hx
  · intro g hg x hx
    rcases List.mem_cons.1 hg with rfl | hg
    · obtain ⟨o, b, e, r⟩ := h3 x hx
      exact ⟨o, b, ho.trans e, r⟩
    · obtain ⟨o, b, e1, e2, e3, e4⟩ := h.sav g (List.mem_cons_of_mem _ hg) x hx
      exact ⟨o, b, e1, e2, (hm x (.inl (mem_own hg (by simp [G.own, hx])))).trans e3,
        (hm o (.inr (mem_origins hg e1))).trans e4⟩
  · intro x hx hg
    rw [own_cons, List.mem_append, not_or] at hx
    by_cases hxo : x ∈ origins m
    · rw [← (h5 x hxo).1]
      have hxn : x ∉ own (⟨c, d, k⟩ :: m) :=
        origin_not_own h (by rw [origins, List.filterMap_cons]; split <;> simp_all [origins])
      refine h.rest x hxn fun g hm' => ?_
      rcases List.mem_cons.1 hm' with rfl | hm'
      · exact fun _ => (h5 x hxo).2
      · exact hg g (List.mem_cons_of_mem _ hm')
    · exact h4 x hx.1 hx.2 hxo fun e => ho ▸ hg ⟨c', d, k⟩ List.mem_cons_self e

theorem origin_not_other {T0 : Table} {s : St} {g : G} {m : List G} (h : Inv T0 s (g :: m)) :
    ∀ x ∈ origins m, g.c.origin ≠ some x := by
  intro x hx e
  have := h.nodupO
  rw [origins_cons_some e, List.nodup_cons] at this
  exact this.1 hx

theorem own_disjoint {T0 : Table} {s : St} {g : G} {m : List G} (h : Inv T0 s (g :: m)) :
    ∀ x ∈ g.own, x ∉ own m ∧ T0 x = none ∧ x ∉ origins m := by
  intro x hx
  have hnd := h.nodup
  rw [own_cons, List.nodup_append] at hnd
  refine ⟨fun e => hnd.2.2 x hx x e rfl, h.fresh x (by rw [own_cons]; exact List.mem_append_left _ hx), fun e => ?_⟩
  exact origin_not_own h (o := x) (by rw [origins, List.filterMap_cons]; split <;> simp_all [origins])
    (by rw [own_cons]; exact List.mem_append_left _ hx)

theorem head_nodup {T0 : Table} {s : St} {g : G} {m : List G} (h : Inv T0 s (g :: m)) : g.own.Nodup := by
  have hnd := h.nodup
  rw [own_cons, List.nodup_append] at hnd
  exact hnd.1

theorem put_ne {t : Table} {x y : Nat} {e : Option Entry} (h : y ≠ x) : put t x e y = t y := if_neg h

theorem put_eq {t : Table} {x : Nat} {e : Option Entry} : put t x e x = e := if_pos rfl

/-- The invariant for a number that is not one of those of the first channel. -/
theorem rest_of {T0 : Table} {s : St} {g : G} {m : List G} (h : Inv T0 s (g :: m)) {x : Nat} (h1 : x ∉ g.own) (h2 : x ∉ own m)
    (h3 : x ∉ origins m) (h4 : g.c.saved ≠ none → g.c.origin ≠ some x) : s.tab x = T0 x := by
  refine h.rest x (by rw [own_cons, List.mem_append, not_or]; exact ⟨h1, h2⟩) fun g' hg' => ?_
  rcases List.mem_cons.1 hg' with rfl | hg'
  · exact h4
  · exact fun _ e => h3 (mem_origins hg' e)

/-- Closing the caller's end. -/
theorem inv_closeFd {T0 : Table} {s : St} {c : Channel} {d : Dir} {k : Nat} {m : List G} (h : Inv T0 s (⟨c, d, k⟩ :: m)) :
    Inv T0 (closeFd s c).2 (⟨(closeFd s c).1, d, k⟩ :: m) ∧ (closeFd s c).2.bad = s.bad := by
  obtain ⟨o, sv, f, t⟩ := c
  cases f with
  | none => exact ⟨h, rfl⟩
  | some x =>
    have hx := h.fd _ List.mem_cons_self x rfl
    have ht : close s x = { s with tab := put s.tab x none } := by rw [close, hx]
    have hr : closeFd s ⟨o, sv, some x, t⟩ = (⟨o, sv, none, t⟩, { s with tab := put s.tab x none }) := by
      simp only [closeFd, ht]
    rw [hr]
    refine ⟨?_, rfl⟩
    have hd := own_disjoint h
    have hn := head_nodup h
    have hxm := hd x (by simp [G.own])
    have hown : G.own ⟨⟨o, sv, some x, t⟩, d, k⟩ = x :: G.own ⟨⟨o, sv, none, t⟩, d, k⟩ := rfl
    rw [hown, List.nodup_cons] at hn
    have hput : ∀ y, y ≠ x → put s.tab x none y = s.tab y := fun y hy => put_ne hy
    have hsub : ∀ y ∈ G.own ⟨⟨o, sv, none, t⟩, d, k⟩, y ≠ x := by rintro y hy rfl; exact hn.1 hy
    have hothers : ∀ y, y ∈ own m ∨ y ∈ origins m → y ≠ x := by
      rintro y (hy | hy) rfl
      · exact hxm.1 hy
      · exact hxm.2.2 hy
    refine inv_step h rfl rfl hn.2 ?_ (fun y hy => hput y (hothers y hy)) ?_ ?_ ?_ ?_ ?_
    · intro y hy
      exact ⟨(hd y (by rw [hown]; simp [hy])).1, (hd y (by rw [hown]; simp [hy])).2.1⟩
    · intro y hy; cases hy
    · intro y hy
      exact (hput y (hsub y (by simp only at hy; simp [G.own, hy]))).trans (h.tbc _ List.mem_cons_self y hy)
    · intro y hy
      obtain ⟨o', b, e1, e2, e3, e4⟩ := h.sav _ List.mem_cons_self y hy
      refine ⟨o', b, e1, e2, (hput y (hsub y (by simp only at hy; simp [G.own, hy]))).trans e3, (hput o' ?_).trans e4⟩
      rintro rfl
      rw [hxm.2.1] at e2; cases e2
    · intro y h1 h2 h3 h4
      by_cases hyx : y = x
      · subst hyx
        exact put_eq.trans hxm.2.1.symm
      · exact (hput y hyx).trans (rest_of h (by rw [hown]; simp [hyx, h1]) h2 h3 h4)
    · intro y hy
      exact ⟨(hput y (hothers y (.inr hy))).symm, origin_not_other h y hy⟩

/-- Closing the end of the process. -/
theorem inv_closeOther {T0 : Table} {s : St} {o sv f : Option Nat} {x : Nat} {d : Dir} {k : Nat} {m : List G}
    (h : Inv T0 s (⟨⟨o, sv, f, some x⟩, d, k⟩ :: m)) :
    Inv T0 (close s x) (⟨⟨o, sv, f, none⟩, d, k⟩ :: m) ∧ (close s x).bad = s.bad := by
  have hx := h.tbc _ List.mem_cons_self x rfl
  have ht : close s x = { s with tab := put s.tab x none } := by rw [close, hx]
  rw [ht]
  refine ⟨?_, rfl⟩
  have hd := own_disjoint h
  have hn := head_nodup h
  have hxm := hd x (by simp [G.own])
  have hown : (G.own ⟨⟨o, sv, f, some x⟩, d, k⟩).Perm (x :: G.own ⟨⟨o, sv, f, none⟩, d, k⟩) := by
    simp only [G.own, Option.toList_some, Option.toList_none, List.append_nil, List.append_assoc, List.singleton_append]
    exact List.perm_middle
  rw [hown.nodup_iff, List.nodup_cons] at hn
  have hput : ∀ y, y ≠ x → put s.tab x none y = s.tab y := fun y hy => put_ne hy
  have hsub : ∀ y ∈ G.own ⟨⟨o, sv, f, none⟩, d, k⟩, y ≠ x := by rintro y hy rfl; exact hn.1 hy
  have hothers : ∀ y, y ∈ own m ∨ y ∈ origins m → y ≠ x := by
    rintro y (hy | hy) rfl
    · exact hxm.1 hy
    · exact hxm.2.2 hy
  refine inv_step h rfl rfl hn.2 ?_
    (fun y hy => hput y (hothers y hy)) ?_ ?_ ?_ ?_ ?_
  · intro y hy
    have := hd y (hown.mem_iff.2 (by simp [hy]))
    exact ⟨this.1, this.2.1⟩
  · intro y hy
    exact (hput y (hsub y (by simp only at hy; simp [G.own, hy]))).trans (h.fd _ List.mem_cons_self y hy)
  · intro y hy; cases hy
  · intro y hy
    obtain ⟨o', b, e1, e2, e3, e4⟩ := h.sav _ List.mem_cons_self y hy
    refine ⟨o', b, e1, e2, (hput y (hsub y (by simp only at hy; simp [G.own, hy]))).trans e3, (hput o' ?_).trans e4⟩
    rintro rfl
    rw [hxm.2.1] at e2; cases e2
  · intro y h1 h2 h3 h4
    by_cases hyx : y = x
    · subst hyx
      exact put_eq.trans hxm.2.1.symm
    · exact (hput y hyx).trans (rest_of h (by rw [hown.mem_iff]; simp [hyx, h1]) h2 h3 h4)
  · intro y hy
    exact ⟨(hput y (hothers y (.inr hy))).symm, origin_not_other h y hy⟩

theorem inv_restore {T0 : Table} {s : St} {c : Channel} {d : Dir} {k : Nat} {m : List G} (h : Inv T0 s (⟨c, d, k⟩ :: m)) :
    Inv T0 (restore s c).2 (⟨(restore s c).1, d, k⟩ :: m) ∧ (restore s c).2.bad = s.bad ∧ (restore s c).1 = { c with saved := none } := by
  obtain ⟨o, sv, f, t⟩ := c
  cases sv with
  | none => exact ⟨h, rfl, rfl⟩
  | some x =>
    obtain ⟨o', b, e1, e2, e3, e4⟩ := h.sav _ List.mem_cons_self x rfl
    simp only at e1
    subst e1
    have hd := own_disjoint h
    have hn := head_nodup h
    have hxm := hd x (by simp [G.own])
    have hox : o' ≠ x := by rintro rfl; rw [hxm.2.1] at e2; cases e2
    have ht : close (dup2 s x o') x = { s with tab := put (put s.tab o' (some ⟨b, true⟩)) x none } := by
      rw [dup2, e3]
      simp only [if_neg (Ne.symm hox)]
      rw [close]
      simp only [put_ne (Ne.symm hox), e3]
    have hr : restore s ⟨some o', some x, f, t⟩ =
        (⟨some o', none, f, t⟩, { s with tab := put (put s.tab o' (some ⟨b, true⟩)) x none }) := by
      simp only [restore, ht]
    rw [hr]
    refine ⟨?_, rfl, rfl⟩
    have hown : (G.own ⟨⟨some o', some x, f, t⟩, d, k⟩).Perm (x :: G.own ⟨⟨some o', none, f, t⟩, d, k⟩) := by
      simp only [G.own, Option.toList_some, Option.toList_none, List.append_nil]
      exact List.perm_append_singleton _ _
    rw [hown.nodup_iff, List.nodup_cons] at hn
    have hput : ∀ y, y ≠ x → y ≠ o' → put (put s.tab o' (some ⟨b, true⟩)) x none y = s.tab y := fun y hy hy' => by
      rw [put_ne hy, put_ne hy']
    have hno : ∀ y, T0 y = none → y ≠ o' := by rintro y hy rfl; rw [hy] at e2; cases e2
    have hsub : ∀ y ∈ G.own ⟨⟨some o', none, f, t⟩, d, k⟩, y ≠ x ∧ y ≠ o' := by
      intro y hy
      exact ⟨by rintro rfl; exact hn.1 hy, hno y (hd y (hown.mem_iff.2 (by simp [hy]))).2.1⟩
    have hothers : ∀ y, y ∈ own m ∨ y ∈ origins m → y ≠ x ∧ y ≠ o' := by
      rintro y (hy | hy)
      · exact ⟨by rintro rfl; exact hxm.1 hy, hno y (h.fresh y (by rw [own_cons]; exact List.mem_append_right _ hy))⟩
      · exact ⟨by rintro rfl; exact hxm.2.2 hy, by rintro rfl; exact origin_not_other h y hy rfl⟩
    refine inv_step h rfl rfl hn.2 ?_
      (fun y hy => hput y (hothers y hy).1 (hothers y hy).2) ?_ ?_ ?_ ?_ ?_
    · intro y hy
      have := hd y (hown.mem_iff.2 (by simp [hy]))
      exact ⟨this.1, this.2.1⟩
    · intro y hy
      have := hsub y (by simp only at hy; simp [G.own, hy])
      exact (hput y this.1 this.2).trans (h.fd _ List.mem_cons_self y hy)
    · intro y hy
      have := hsub y (by simp only at hy; simp [G.own, hy])
      exact (hput y this.1 this.2).trans (h.tbc _ List.mem_cons_self y hy)
    · intro y hy; cases hy
    · intro y h1 h2 h3 _
      by_cases hyx : y = x
      · subst hyx
        exact put_eq.trans hxm.2.1.symm
      · by_cases hyo : y = o'
        · subst hyo
          exact ((put_ne hyx).trans put_eq).trans e2.symm
        · exact (hput y hyx hyo).trans (rest_of h (by rw [hown.mem_iff]; simp [hyx, h1]) h2 h3
            fun _ e => hyo (Option.some.inj e).symm)
    · intro y hy
      exact ⟨(hput y (hothers y (.inr hy)).1 (hothers y (.inr hy)).2).symm, origin_not_other h y hy⟩

theorem inv_closeUnused {T0 : Table} {s : St} {c : Channel} {d : Dir} {k : Nat} {m : List G} (h : Inv T0 s (⟨c, d, k⟩ :: m)) :
    Inv T0 (closeUnused s c).2 (⟨(closeUnused s c).1, d, k⟩ :: m) ∧ (closeUnused s c).2.bad = s.bad ∧
      (closeUnused s c).1 = { c with saved := none, toBeClosed := none } := by
  obtain ⟨o, sv, f, t⟩ := c
  cases t with
  | none =>
    exact inv_restore h
  | some x =>
    obtain ⟨h1, e1⟩ := inv_closeOther h
    obtain ⟨h2, e2, e3⟩ := inv_restore h1
    exact ⟨h2, e2.trans e1, e3⟩

/-- `_dup` and `_dup2`, when a number can be found. -/
theorem inv_redirect {T0 : Table} {s : St} {c : Channel} {d : Dir} {k : Nat} {m : List G} {pick : Pick}
    (hp : ∀ t x, pick t = some x → t x = none) (h : Inv T0 s (⟨c, d, k⟩ :: m)) (hs : c.saved = none)
    (hc : c.origin ≠ none → c.toBeClosed ≠ none) (ht : c.origin ≠ none → (redirect pick s c).1.saved ≠ none) :
    Inv T0 (redirect pick s c).2 (⟨(redirect pick s c).1, d, k⟩ :: m) ∧ (redirect pick s c).2.bad = s.bad ∧
      ∃ sv, (redirect pick s c).1 = { c with saved := sv } ∧ (sv = none ↔ c.origin = none) := by
  obtain ⟨o, sv, f, t⟩ := c
  simp only at hs hc
  subst hs
  cases o with
  | none => exact ⟨h, rfl, none, rfl, by simp⟩
  | some o =>
    cases t with
    | none => exact absurd rfl (hc (by simp))
    | some y =>
      have hd := own_disjoint h
      have hn := head_nodup h
      obtain ⟨b, eo⟩ := h.openO o (mem_origins List.mem_cons_self rfl)
      have hoo : o ∉ own (⟨⟨some o, none, f, some y⟩, d, k⟩ :: m) :=
        origin_not_own h (mem_origins List.mem_cons_self rfl)
      have hom : o ∉ origins m := fun e => origin_not_other h o e rfl
      have hso : s.tab o = some ⟨b, true⟩ := by
        refine (rest_of h (fun e => hoo ?_) (fun e => hoo ?_) hom (by simp)).trans eo
        · rw [own_cons]; exact List.mem_append_left _ e
        · rw [own_cons]; exact List.mem_append_right _ e
      have hz : pick s.tab ≠ none := by
        intro e
        refine ht (by simp) ?_
        simp only [redirect, dup, hso, e]
      obtain ⟨z, hz⟩ := Option.ne_none_iff_exists'.1 hz
      have hzf := hp _ _ hz
      have hy := h.tbc _ List.mem_cons_self y rfl
      have hzo : z ≠ o := by rintro rfl; rw [hso] at hzf; cases hzf
      have hzy : z ≠ y := by rintro rfl; rw [hy] at hzf; cases hzf
      have hyo : y ≠ o := by rintro rfl; exact hoo (by rw [own_cons]; simp [G.own])
      have hr : redirect pick s ⟨some o, none, f, some y⟩ = (⟨some o, some z, f, some y⟩,
          { s with tab := put (put s.tab z (some ⟨b, true⟩)) o (some ⟨endOf (other d) k, true⟩) }) := by
        have hdup : dup pick s o = (some z, { s with tab := put s.tab z (some ⟨b, true⟩) }) := by
          rw [dup, hso, hz]
        simp only [redirect, hdup]
        rw [dup2]
        simp only [put_ne (Ne.symm hzy), hy, if_neg hyo]
      rw [hr]
      have hzown : z ∉ own (⟨⟨some o, none, f, some y⟩, d, k⟩ :: m) := by
        intro e
        obtain ⟨g, hg, hx⟩ := List.mem_flatMap.1 e
        simp only [G.own, List.mem_append, Option.mem_toList] at hx
        rcases hx with (hx | hx) | hx
        · rw [h.fd g hg z hx] at hzf; cases hzf
        · rw [h.tbc g hg z hx] at hzf; cases hzf
        · obtain ⟨_, _, _, _, e, _⟩ := h.sav g hg z hx
          rw [e] at hzf; cases hzf
      have hzm : z ∉ own m := fun e => hzown (by rw [own_cons]; exact List.mem_append_right _ e)
      have hzg : z ∉ G.own ⟨⟨some o, none, f, some y⟩, d, k⟩ := fun e => hzown (by rw [own_cons]; exact List.mem_append_left _ e)
      have hzorig : ∀ g ∈ m, g.c.origin ≠ some z := by
        intro g hg e
        obtain ⟨b2, e2⟩ := h.openO z (mem_origins (List.mem_cons_of_mem _ hg) e)
        cases hsv : g.c.saved with
        | some x =>
          obtain ⟨o2, _, e3, _, _, e4⟩ := h.sav g (List.mem_cons_of_mem _ hg) x hsv
          rw [e] at e3
          cases e3
          rw [e4] at hzf; cases hzf
        | none =>
          have hr := h.rest z hzown (by
            intro g' hg' hs' e'
            obtain ⟨x, hx⟩ := Option.ne_none_iff_exists'.1 hs'
            obtain ⟨o2, _, e3, _, _, e4⟩ := h.sav g' hg' x hx
            rw [e'] at e3
            cases e3
            rw [e4] at hzf; cases hzf)
          rw [hzf, e2] at hr; cases hr
      have hzom : z ∉ origins m := by
        intro e
        obtain ⟨g, hg, e⟩ := List.mem_filterMap.1 e
        exact hzorig g hg e
      have hz0 : T0 z = none := by
        rw [← rest_of h hzg hzm hzom (by simp)]
        exact hzf
      have hown : (G.own ⟨⟨some o, some z, f, some y⟩, d, k⟩).Perm (z :: G.own ⟨⟨some o, none, f, some y⟩, d, k⟩) := by
        simp only [G.own, Option.toList_some, Option.toList_none, List.append_nil]
        exact List.perm_append_singleton _ _
      have hput : ∀ x, x ≠ z → x ≠ o → put (put s.tab z (some ⟨b, true⟩)) o (some ⟨endOf (other d) k, true⟩) x = s.tab x :=
        fun x h1 h2 => by rw [put_ne h2, put_ne h1]
      have hno : ∀ x, T0 x = none → x ≠ o := by rintro x hx rfl; rw [hx] at eo; cases eo
      have hsub : ∀ x ∈ G.own ⟨⟨some o, none, f, some y⟩, d, k⟩, x ≠ z ∧ x ≠ o := fun x hx =>
        ⟨by rintro rfl; exact hzg hx, hno x (hd x hx).2.1⟩
      have hothers : ∀ x, x ∈ own m ∨ x ∈ origins m → x ≠ z ∧ x ≠ o := by
        rintro x (hx | hx)
        · exact ⟨by rintro rfl; exact hzm hx, hno x (h.fresh x (by rw [own_cons]; exact List.mem_append_right _ hx))⟩
        · exact ⟨by rintro rfl; exact hzom hx, by rintro rfl; exact hom hx⟩
      refine ⟨?_, rfl, some z, rfl, by simp⟩
      · refine inv_step h rfl rfl ?_ ?_
          (fun x hx => hput x (hothers x hx).1 (hothers x hx).2) ?_ ?_ ?_ ?_ ?_
        · rw [hown.nodup_iff, List.nodup_cons]; exact ⟨hzg, hn⟩
        · intro x hx
          rcases List.mem_cons.1 (hown.mem_iff.1 hx) with rfl | hx
          · exact ⟨hzm, hz0⟩
          · exact ⟨(hd x hx).1, (hd x hx).2.1⟩
        · intro x hx
          have := hsub x (by simp only at hx; simp [G.own, hx])
          exact (hput x this.1 this.2).trans (h.fd _ List.mem_cons_self x hx)
        · intro x hx
          have := hsub x (by simp only at hx; simp [G.own, hx])
          exact (hput x this.1 this.2).trans (h.tbc _ List.mem_cons_self x hx)
        · intro x hx
          cases hx
          exact ⟨o, b, rfl, eo, (put_ne hzo).trans put_eq, put_eq⟩
        · intro x h1 h2 h3 h4
          have hxo : x ≠ o := fun e => h4 (by simp) (by rw [e])
          rw [hown.mem_iff, List.mem_cons, not_or] at h1
          exact (hput x h1.1 hxo).trans (rest_of h h1.2 h2 h3 (by simp))
        · intro x hx
          exact ⟨(hput x (hothers x (.inr hx)).1 (hothers x (.inr hx)).2).symm, origin_not_other h x hx⟩

theorem open_own {T0 : Table} {s : St} {gs : List G} (h : Inv T0 s gs) {x : Nat} (hx : x ∈ own gs) : s.tab x ≠ none := by
  obtain ⟨g, hg, hx⟩ := List.mem_flatMap.1 hx
  simp only [G.own, List.mem_append, Option.mem_toList] at hx
  rcases hx with (hx | hx) | hx
  · rw [h.fd g hg x hx]; simp
  · rw [h.tbc g hg x hx]; simp
  · obtain ⟨_, _, _, _, e, _⟩ := h.sav g hg x hx
    rw [e]; simp

/-- A new pipe. -/
theorem inv_add {T0 : Table} {s s' : St} {gs : List G} {o : Option Nat} {d : Dir} {k a b : Nat} (h : Inv T0 s gs)
    (hs : ∀ g ∈ gs, g.c.saved = none) (hp : k < s'.pipes) (hk : s.pipes ≤ k) (ha : s.tab a = none) (hb : s.tab b = none) (hab : a ≠ b)
    (ea : s'.tab a = some ⟨endOf d k, false⟩) (eb : s'.tab b = some ⟨endOf (other d) k, o.isNone⟩)
    (e : ∀ x, x ≠ a → x ≠ b → s'.tab x = s.tab x) (ho : ∀ x, o = some x → x ∉ origins gs ∧ ∃ b, T0 x = some ⟨b, true⟩) :
    Inv T0 s' (⟨⟨o, none, some a, some b⟩, d, k⟩ :: gs) := by
  have hna : a ∉ own gs := fun hm => open_own h hm ha
  have hnb : b ∉ own gs := fun hm => open_own h hm hb
  have hr : ∀ x, x ∉ own gs → s.tab x = T0 x := fun x hx => h.rest x hx fun g hg hg' => absurd (hs g hg) hg'
  have hown : own (⟨⟨o, none, some a, some b⟩, d, k⟩ :: gs) = a :: b :: own gs := rfl
  refine ⟨?_, ?_, ?_, ?_, ?_, ?_, ?_, ?_, ?_, ?_⟩
  · rw [hown]; simp [hab, hna, hnb, h.nodup]
  · intro x hx
    rw [hown, List.mem_cons, List.mem_cons] at hx
    rcases hx with rfl | rfl | hx
    · rw [← hr x hna]; exact ha
    · rw [← hr x hnb]; exact hb
    · exact h.fresh x hx
  · cases o with
    | none => rw [origins_cons_none rfl]; exact h.nodupO
    | some x => rw [origins_cons_some rfl, List.nodup_cons]; exact ⟨(ho x rfl).1, h.nodupO⟩
  · cases o with
    | none => rw [origins_cons_none rfl]; exact h.openO
    | some x =>
      intro y hy
      rw [origins_cons_some rfl, List.mem_cons] at hy
      rcases hy with rfl | hy
      · exact (ho y rfl).2
      · exact h.openO y hy
  · rw [List.map_cons, List.nodup_cons]
    refine ⟨fun hm => ?_, h.ids⟩
    obtain ⟨g, hg, hgk⟩ := List.mem_map.1 hm
    have := h.lt g hg
    simp only at hgk
    omega
  · intro g hg
    rcases List.mem_cons.1 hg with rfl | hg
    · exact hp
    · have := h.lt g hg
      omega
  · intro g hg x hx
    rcases List.mem_cons.1 hg with rfl | hg
    · cases hx; exact ea
    · have hm := mem_own hg (show x ∈ G.own g by simp [G.own, hx])
      rw [e x (by rintro rfl; exact hna hm) (by rintro rfl; exact hnb hm)]
      exact h.fd g hg x hx
  · intro g hg x hx
    rcases List.mem_cons.1 hg with rfl | hg
    · cases hx; exact eb
    · have hm := mem_own hg (show x ∈ G.own g by simp [G.own, hx])
      rw [e x (by rintro rfl; exact hna hm) (by rintro rfl; exact hnb hm)]
      exact h.tbc g hg x hx
  · intro g hg x hx
    rcases List.mem_cons.1 hg with rfl | hg
    · cases hx
    · rw [hs g hg] at hx; cases hx
  · intro x hx _
    rw [hown, List.mem_cons, List.mem_cons, not_or, not_or] at hx
    rw [e x hx.1 hx.2.1, hr x hx.2.2]

/-- A pipe that could not be made. -/
theorem inv_fail {T0 : Table} {s s' : St} {gs : List G} {d : Dir} {k : Nat} (h : Inv T0 s gs) (hp : k < s'.pipes) (hk : s.pipes ≤ k)
    (e : s'.tab = s.tab) : Inv T0 s' (⟨.new, d, k⟩ :: gs) := by
  have hown : own (⟨.new, d, k⟩ :: gs) = own gs := rfl
  refine ⟨h.nodup, h.fresh, h.nodupO, h.openO, ?_, ?_, ?_, ?_, ?_, ?_⟩
  · rw [List.map_cons, List.nodup_cons]
    refine ⟨fun hm => ?_, h.ids⟩
    obtain ⟨g, hg, hgk⟩ := List.mem_map.1 hm
    have := h.lt g hg
    simp only at hgk
    omega
  · intro g hg
    rcases List.mem_cons.1 hg with rfl | hg
    · exact hp
    · have := h.lt g hg
      omega
  · intro g hg x hx
    rcases List.mem_cons.1 hg with rfl | hg
    · cases hx
    · rw [e]; exact h.fd g hg x hx
  · intro g hg x hx
    rcases List.mem_cons.1 hg with rfl | hg
    · cases hx
    · rw [e]; exact h.tbc g hg x hx
  · intro g hg x hx
    rcases List.mem_cons.1 hg with rfl | hg
    · cases hx
    · rw [e]; exact h.sav g hg x hx
  · intro x hx hg
    rw [e]
    exact h.rest x (hown ▸ hx) fun g hm => hg g (List.mem_cons_of_mem _ hm)

/-- What `_pipe` does. -/
theorem pipe_cases {pick : Pick} (hp : ∀ t x, pick t = some x → t x = none) (i : Bool) (s : St) :
    (pipe pick i s = (none, { s with pipes := s.pipes + 1 })) ∨
    ∃ a b, pipe pick i s = (some (a, b), ⟨put (put s.tab a (some ⟨.rd s.pipes, i⟩)) b (some ⟨.wr s.pipes, i⟩), s.pipes + 1, s.bad⟩) ∧
      a ≠ b ∧ s.tab a = none ∧ s.tab b = none := by
  rw [pipe]
  cases ha : pick s.tab with
  | none => exact .inl rfl
  | some a =>
    cases hb : pick (put s.tab a (some ⟨.rd s.pipes, i⟩)) with
    | none => left; simp only [hb]
    | some b =>
      right
      have h1 := hp _ _ ha
      have h2 := hp _ _ hb
      have hne : a ≠ b := by rintro rfl; rw [put_eq] at h2; cases h2
      rw [put_ne (Ne.symm hne)] at h2
      exact ⟨a, b, by simp only [hb], hne, h1, h2⟩

theorem side_ne (d : Dir) {a b : Nat} (h : a ≠ b) : side d (a, b) ≠ side (other d) (a, b) := by
  cases d
  · exact h
  · exact h.symm

theorem side_tab {t : Table} {a b k : Nat} (h : a ≠ b) (i : Bool) (d : Dir) :
    put (put t a (some ⟨.rd k, i⟩)) b (some ⟨.wr k, i⟩) (side d (a, b)) = some ⟨endOf d k, i⟩ := by
  cases d
  · exact (put_ne h).trans put_eq
  · exact put_eq

theorem side_cases (d : Dir) (a b : Nat) : side d (a, b) = a ∨ side d (a, b) = b := by cases d <;> simp [side]

theorem ne_sides {d : Dir} {a b x : Nat} (h1 : x ≠ side d (a, b)) (h2 : x ≠ side (other d) (a, b)) : x ≠ a ∧ x ≠ b := by
  cases d
  · exact ⟨h1, h2⟩
  · exact ⟨h2, h1⟩

theorem other_other (d : Dir) : other (other d) = d := by cases d <;> rfl

/-- What a channel looks like after it was made. -/
def Made (o : Option Nat) (c : Channel) : Prop := c = .new ∨ ∃ x y, c = ⟨o, none, some x, some y⟩

theorem inv_initAt {T0 : Table} {s : St} {gs : List G} {x : Nat} {d : Dir} {pick : Pick} (hp : ∀ t x, pick t = some x → t x = none)
    (h : Inv T0 s gs) (hs : ∀ g ∈ gs, g.c.saved = none) (ho : x ∉ origins gs) (hb : ∃ b, T0 x = some ⟨b, true⟩) :
    Inv T0 (initAt pick s x d).2 (⟨(initAt pick s x d).1, d, s.pipes⟩ :: gs) ∧ (initAt pick s x d).2.bad = s.bad ∧
      Made (some x) (initAt pick s x d).1 := by
  rcases pipe_cases hp false s with e | ⟨a, b, e, hab, ha, hb'⟩
  · simp only [initAt, e]
    exact ⟨inv_fail h (Nat.lt_succ_self _) (Nat.le_refl _) rfl, trivial, .inl rfl⟩
  · simp only [initAt, e]
    have hsd : ∀ d, s.tab (side d (a, b)) = none := fun d => by rcases side_cases d a b with e | e <;> rw [e] <;> assumption
    refine ⟨inv_add h hs (Nat.lt_succ_self _) (Nat.le_refl _) (hsd d) (hsd (other d)) (side_ne d hab) (side_tab hab false d)
      (side_tab hab false (other d)) ?_ ?_, trivial, .inr ⟨_, _, rfl⟩⟩
    · intro y h1 h2
      have := ne_sides h1 h2
      exact (put_ne this.2).trans (put_ne this.1)
    · intro y hy; cases hy
      exact ⟨ho, hb⟩

theorem close_open {s : St} {x : Nat} {e : Entry} (h : s.tab x = some e) : close s x = { s with tab := put s.tab x none } := by
  rw [close, h]

theorem close_none {s : St} {x : Nat} (h : s.tab x = none) : close s x = { s with bad := s.bad + 1 } := by
  rw [close, h]

theorem inv_initAny {T0 : Table} {s : St} {gs : List G} {d : Dir} {pick : Pick} (hp : ∀ t x, pick t = some x → t x = none)
    (h : Inv T0 s gs) (hs : ∀ g ∈ gs, g.c.saved = none) :
    Inv T0 (initAny pick s d).2 (⟨(initAny pick s d).1, d, s.pipes⟩ :: gs) ∧
      (initAny pick s d).2.bad = s.bad + (if (initAny pick s d).1 = .new then 0 else 1) ∧
      Made none (initAny pick s d).1 := by
  rcases pipe_cases hp false s with e | ⟨a, b, e, hab, ha, hb⟩
  · simp only [initAny, e]
    exact ⟨inv_fail h (Nat.lt_succ_self _) (Nat.le_refl _) rfl, rfl, .inl rfl⟩
  · have hsd : ∀ d, s.tab (side d (a, b)) = none := fun d => by rcases side_cases d a b with e | e <;> rw [e] <;> assumption
    have htab := fun d => side_tab (t := s.tab) (k := s.pipes) hab false d
    have hsn := side_ne d hab
    generalize hs1 : (⟨put (put s.tab a (some ⟨.rd s.pipes, false⟩)) b (some ⟨.wr s.pipes, false⟩), s.pipes + 1, s.bad⟩ : St) = s1 at e
    have hs1t : ∀ d, s1.tab (side d (a, b)) = some ⟨endOf d s.pipes, false⟩ := fun d => by rw [← hs1]; exact htab d
    have hs1o : ∀ x, x ≠ side d (a, b) → x ≠ side (other d) (a, b) → s1.tab x = s.tab x := by
      intro x h1 h2
      have := ne_sides h1 h2
      rw [← hs1]
      exact (put_ne this.2).trans (put_ne this.1)
    have hs1p : s1.pipes = s.pipes + 1 := by rw [← hs1]
    have hs1b : s1.bad = s.bad := by rw [← hs1]
    rcases pipe_cases hp true s1 with e' | ⟨a', b', e', hab', ha', hb'⟩
    · have e1 : close { s1 with pipes := s1.pipes + 1 } (side d (a, b)) =
          { s1 with pipes := s1.pipes + 1, tab := put s1.tab (side d (a, b)) none } := close_open (hs1t d)
      have e2 : close { s1 with pipes := s1.pipes + 1, tab := put s1.tab (side d (a, b)) none } (side (other d) (a, b)) =
          { s1 with pipes := s1.pipes + 1, tab := put (put s1.tab (side d (a, b)) none) (side (other d) (a, b)) none } :=
        close_open ((put_ne hsn.symm).trans (hs1t (other d)))
      have er : initAny pick s d = (.new, { s1 with
          pipes := s1.pipes + 1
          tab := put (put s1.tab (side d (a, b)) none) (side (other d) (a, b)) none }) := by
        simp only [initAny, e, e']
        rw [e1, e2]
      rw [er]
      refine ⟨inv_fail h (by show s.pipes < s1.pipes + 1; omega) (Nat.le_refl _) ?_, hs1b, .inl rfl⟩
      funext x
      show put (put s1.tab (side d (a, b)) none) (side (other d) (a, b)) none x = s.tab x
      by_cases hx : x = side (other d) (a, b)
      · rw [hx, put_eq, hsd]
      · rw [put_ne hx]
        by_cases hx' : x = side d (a, b)
        · rw [hx', put_eq, hsd]
        · rw [put_ne hx', hs1o x hx' hx]
    · have hsd' : ∀ d, s1.tab (side d (a', b')) = none := fun d => by
        rcases side_cases d a' b' with e | e <;> rw [e] <;> assumption
      have htab' := fun d => side_tab (t := s1.tab) (k := s1.pipes) hab' true d
      have hsn' := side_ne d hab'
      generalize hs2 : (⟨put (put s1.tab a' (some ⟨.rd s1.pipes, true⟩)) b' (some ⟨.wr s1.pipes, true⟩), s1.pipes + 1, s1.bad⟩ : St) =
        s2 at e'
      have hs2t : ∀ d, s2.tab (side d (a', b')) = some ⟨endOf d s1.pipes, true⟩ := fun d => by rw [← hs2]; exact htab' d
      have hs2o : ∀ x, x ≠ side d (a', b') → x ≠ side (other d) (a', b') → s2.tab x = s1.tab x := by
        intro x h1 h2
        have := ne_sides h1 h2
        rw [← hs2]
        exact (put_ne this.2).trans (put_ne this.1)
      have hs2p : s2.pipes = s.pipes + 2 := by rw [← hs2]; show s1.pipes + 1 = _; omega
      have hs2b : s2.bad = s.bad := by rw [← hs2]; exact hs1b
      have hne : ∀ d1 d2, side d1 (a', b') ≠ side d2 (a, b) := by
        intro d1 d2 e
        have := hsd' d1
        rw [e, hs1t d2] at this
        cases this
      generalize hA : side d (a, b) = A at *
      generalize hB : side (other d) (a, b) = B at *
      generalize hA' : side d (a', b') = A' at *
      generalize hB' : side (other d) (a', b') = B' at *
      have nAA : A' ≠ A := hA ▸ hA' ▸ hne d d
      have nAB : A' ≠ B := hB ▸ hA' ▸ hne d (other d)
      have nBA : B' ≠ A := hA ▸ hB' ▸ hne (other d) d
      have nBB : B' ≠ B := hB ▸ hB' ▸ hne (other d) (other d)
      have tA : s2.tab A = some ⟨endOf d s.pipes, false⟩ := (hs2o A nAA.symm nBA.symm).trans (hA ▸ hs1t d)
      have tB : s2.tab B = some ⟨endOf (other d) s.pipes, false⟩ := (hs2o B nAB.symm nBB.symm).trans (hB ▸ hs1t (other d))
      have tA' : s2.tab A' = some ⟨endOf d s1.pipes, true⟩ := hA' ▸ hs2t d
      have tB' : s2.tab B' = some ⟨endOf (other d) s1.pipes, true⟩ := hB' ▸ hs2t (other d)
      have e1 : close s2 A' = { s2 with tab := put s2.tab A' none } := close_open tA'
      have e2 : dup2 { s2 with tab := put s2.tab A' none } B B' =
          { s2 with tab := put (put s2.tab A' none) B' (some ⟨endOf (other d) s.pipes, true⟩) } := by
        simp only [dup2, put_ne nAB.symm, tB, if_neg nBB.symm]
      have e3 : close { s2 with tab := put (put s2.tab A' none) B' (some ⟨endOf (other d) s.pipes, true⟩) } B =
          { s2 with tab := put (put (put s2.tab A' none) B' (some ⟨endOf (other d) s.pipes, true⟩)) B none } :=
        close_open (((put_ne nBB.symm).trans (put_ne nAB.symm)).trans tB)
      have e4 : close { s2 with tab := put (put (put s2.tab A' none) B' (some ⟨endOf (other d) s.pipes, true⟩)) B none } B =
          { s2 with
            tab := put (put (put s2.tab A' none) B' (some ⟨endOf (other d) s.pipes, true⟩)) B none
            bad := s2.bad + 1 } :=
        close_none put_eq
      have er : initAny pick s d = (⟨none, none, some A, some B'⟩, { s2 with
            tab := put (put (put s2.tab A' none) B' (some ⟨endOf (other d) s.pipes, true⟩)) B none
            bad := s2.bad + 1 }) := by
        simp only [initAny, e, e', hA, hB, hA', hB']
        rw [e1, e2, e3, e4]
      rw [er]
      refine ⟨?_, ?_, .inr ⟨_, _, rfl⟩⟩
      · refine inv_add h hs (by show s.pipes < s2.pipes; omega) (Nat.le_refl _) (hA ▸ hsd d) ?_ nBA.symm ?_ ?_ ?_ (fun x hx => by cases hx)
        · rw [← hs1o B' nBA nBB]; exact hB' ▸ hsd' (other d)
        · show put (put (put s2.tab A' none) B' _) B none A = _
          rw [put_ne hsn, put_ne nBA.symm, put_ne nAA.symm]
          exact tA
        · show put (put (put s2.tab A' none) B' _) B none B' = _
          rw [put_ne nBB, put_eq]; rfl
        · intro x h1 h2
          show put (put (put s2.tab A' none) B' _) B none x = _
          by_cases hx : x = B
          · rw [hx, put_eq]; exact (hB ▸ hsd (other d)).symm
          · rw [put_ne hx, put_ne h2]
            by_cases hx' : x = A'
            · rw [hx', put_eq, ← hs1o A' nAA nAB]; exact (hA' ▸ hsd' d).symm
            · rw [put_ne hx', hs2o x hx' h2, hs1o x h1 hx]
      · show s2.bad + 1 = s.bad + _
        rw [if_neg (by simp [Channel.new]), hs2b]

/-- Two lists of the same length with related elements. -/
inductive All2 {α β : Type} (R : α → β → Prop) : List α → List β → Prop
  | nil : All2 R [] []
  | cons {a : α} {b : β} {l : List α} {m : List β} (h : R a b) (t : All2 R l m) : All2 R (a :: l) (b :: m)

theorem All2.get {α β : Type} {R : α → β → Prop} {l : List α} {m : List β} (h : All2 R l m) {i : Nat} {a : α} (e : l[i]? = some a) :
    ∃ b, m[i]? = some b ∧ R a b := by
  induction h generalizing i with
  | nil => simp at e
  | @cons a' b' l' m' h t ih =>
    cases i with
    | zero => simp only [List.getElem?_cons_zero, Option.some.injEq] at e; subst e; exact ⟨b', by simp, h⟩
    | succ i => simp only [List.getElem?_cons_succ] at e ⊢; exact ih e

theorem All2.comp {α β γ : Type} {R : α → β → Prop} {S : β → γ → Prop} {l : List α} {m : List β} {n : List γ} (h : All2 R l m)
    (h' : All2 S m n) : All2 (fun a c => ∃ b, R a b ∧ S b c) l n := by
  induction h generalizing n with
  | nil => cases h'; exact .nil
  | cons h t ih =>
    cases h' with
    | cons k u => exact .cons ⟨_, h, k⟩ (ih u)

theorem All2.imp {α β : Type} {R S : α → β → Prop} {l : List α} {m : List β} (h : All2 R l m) (f : ∀ a b, R a b → S a b) :
    All2 S l m := by
  induction h with
  | nil => exact .nil
  | cons h t ih => exact .cons (f _ _ h) ih

theorem All2.right {α β : Type} {R : α → β → Prop} {l : List α} {m : List β} (h : All2 R l m) : ∀ b ∈ m, ∃ a ∈ l, R a b := by
  induction h with
  | nil => simp
  | @cons a' b' l' m' h t ih =>
    intro b hb
    rcases List.mem_cons.1 hb with rfl | hb
    · exact ⟨a', List.mem_cons_self, h⟩
    · obtain ⟨a, ha, r⟩ := ih b hb
      exact ⟨a, List.mem_cons_of_mem _ ha, r⟩

theorem All2.length {α β : Type} {R : α → β → Prop} {l : List α} {m : List β} (h : All2 R l m) : l.length = m.length := by
  induction h with
  | nil => rfl
  | cons h t ih => simp [ih]

theorem All2.refl {α : Type} {R : α → α → Prop} (h : ∀ a, R a a) : ∀ l : List α, All2 R l l
  | [] => .nil
  | a :: l => .cons (h a) (All2.refl h l)

/-- A loop over the channels keeps the invariant. -/
theorem each_inv {T0 : Table} {f : St → Channel → Channel × St} {P R : Channel → Prop} {Q : Channel → Channel → Prop}
    (hf : ∀ s c d k m, Inv T0 s (⟨c, d, k⟩ :: m) → P c → R (f s c).1 →
      Inv T0 (f s c).2 (⟨(f s c).1, d, k⟩ :: m) ∧ (f s c).2.bad = s.bad ∧ Q c (f s c).1) :
    ∀ (gs pre : List G) (s : St), Inv T0 s (pre ++ gs) → (∀ g ∈ gs, P g.c) → (∀ c ∈ (each f s (gs.map G.c)).1, R c) →
      ∃ gs', (each f s (gs.map G.c)).1 = gs'.map G.c ∧ Inv T0 (each f s (gs.map G.c)).2 (pre ++ gs') ∧
        (each f s (gs.map G.c)).2.bad = s.bad ∧ All2 (fun g g' => g'.d = g.d ∧ g'.k = g.k ∧ Q g.c g'.c) gs gs'
  | [], pre, s, h, _, _ => ⟨[], rfl, h, rfl, .nil⟩
  | ⟨c, d, k⟩ :: gs, pre, s, h, hP, hR => by
    obtain ⟨h1, b1, q1⟩ := hf s c d k (pre ++ gs) (h.perm List.perm_middle) (hP _ List.mem_cons_self)
      (hR _ (by rw [List.map_cons, each]; exact List.mem_cons_self))
    have h2 : Inv T0 (f s c).2 ((pre ++ [⟨(f s c).1, d, k⟩]) ++ gs) := by
      rw [List.append_assoc, List.singleton_append]
      exact h1.perm List.perm_middle.symm
    obtain ⟨gs', e, h3, b3, a⟩ := each_inv hf gs (pre ++ [⟨(f s c).1, d, k⟩]) (f s c).2 h2
      (fun g hg => hP g (List.mem_cons_of_mem _ hg)) fun c' hc' => hR c' (by
        rw [List.map_cons, each]; exact List.mem_cons_of_mem _ hc')
    rw [List.append_assoc, List.singleton_append] at h3
    exact ⟨⟨(f s c).1, d, k⟩ :: gs', by rw [List.map_cons, each, List.map_cons, e], h3, b3.trans b1, .cons ⟨rfl, rfl, q1⟩ a⟩

theorem closeSome_inv {T0 : Table} :
    ∀ (gs pre : List G) (s : St) (done : List Bool), Inv T0 s (pre ++ gs) →
      ∃ gs', (closeSome s done (gs.map G.c)).1 = gs'.map G.c ∧ Inv T0 (closeSome s done (gs.map G.c)).2 (pre ++ gs') ∧
        (closeSome s done (gs.map G.c)).2.bad = s.bad
  | gs, pre, s, [], h => ⟨gs, by cases gs <;> rfl, by cases gs <;> exact h, by cases gs <;> rfl⟩
  | [], pre, s, b :: done, h => ⟨[], rfl, h, rfl⟩
  | ⟨c, d, k⟩ :: gs, pre, s, b :: done, h => by
    have step : ∃ c' s', (if b = true then closeFd s c else (c, s)) = (c', s') ∧ Inv T0 s' (⟨c', d, k⟩ :: (pre ++ gs)) ∧ s'.bad = s.bad := by
      cases b with
      | true =>
        obtain ⟨h1, b1⟩ := inv_closeFd (h.perm List.perm_middle)
        exact ⟨_, _, rfl, h1, b1⟩
      | false => exact ⟨_, _, rfl, h.perm List.perm_middle, rfl⟩
    obtain ⟨c', s', e1, h1, b1⟩ := step
    have h2 : Inv T0 s' ((pre ++ [⟨c', d, k⟩]) ++ gs) := by
      rw [List.append_assoc, List.singleton_append]
      exact h1.perm List.perm_middle.symm
    obtain ⟨gs', e, h3, b3⟩ := closeSome_inv gs (pre ++ [⟨c', d, k⟩]) s' done h2
    rw [List.append_assoc, List.singleton_append] at h3
    have er : closeSome s (b :: done) (List.map G.c (⟨c, d, k⟩ :: gs)) =
        (c' :: (closeSome s' done (gs.map G.c)).1, (closeSome s' done (gs.map G.c)).2) := by
      rw [List.map_cons, closeSome, e1]
    rw [er]
    exact ⟨⟨c', d, k⟩ :: gs', by rw [e, List.map_cons], h3, b3.trans b1⟩

/-- The numbers that are asked for. -/
def asked (rs : List Req) : List Nat := rs.filterMap (·.1)

/-- A channel without a number in the process, made with a second pipe. -/
def twice (c : Channel) : Bool := c.fd.isSome && c.origin.isNone

theorem initAll_inv {T0 : Table} {pick : Pick} (hp : ∀ t x, pick t = some x → t x = none) :
    ∀ (rs : List Req) (pre : List G) (s : St), Inv T0 s pre → (∀ g ∈ pre, g.c.saved = none) → (asked rs).Nodup →
      (∀ x ∈ asked rs, x ∉ origins pre ∧ ∃ b, T0 x = some ⟨b, true⟩) →
      ∃ gs, (initAll pick s rs).1 = gs.map G.c ∧ Inv T0 (initAll pick s rs).2 (pre ++ gs) ∧
        (initAll pick s rs).2.bad = s.bad + ((initAll pick s rs).1.filter twice).length ∧
        All2 (fun r g => g.d = r.2 ∧ Made r.1 g.c) rs gs
  | [], pre, s, h, _, _, _ => ⟨[], rfl, by rw [List.append_nil]; exact h, rfl, .nil⟩
  | (o, d) :: rs, pre, s, h, hs, hn, ho => by
    have step : ∃ c' s', initOne pick s o d = (c', s') ∧
        Inv T0 s' (⟨c', d, s.pipes⟩ :: pre) ∧ s'.bad = s.bad + (if twice c' then 1 else 0) ∧ Made o c' := by
      cases o with
      | some x =>
        obtain ⟨h1, b1, m1⟩ := inv_initAt (d := d) hp h hs (ho x (by simp [asked])).1 (ho x (by simp [asked])).2
        refine ⟨(initAt pick s x d).1, (initAt pick s x d).2, rfl, h1, ?_, m1⟩
        rw [b1]
        rcases m1 with e | ⟨a, b, e⟩ <;> rw [e] <;> rfl
      | none =>
        obtain ⟨h1, b1, m1⟩ := inv_initAny (d := d) hp h hs
        refine ⟨(initAny pick s d).1, (initAny pick s d).2, rfl, h1, ?_, m1⟩
        rw [b1]
        rcases m1 with e | ⟨a, b, e⟩ <;> rw [e]
        · rfl
        · rw [if_neg (by simp [Channel.new])]; rfl
    obtain ⟨c', s', e1, h1, b1, m1⟩ := step
    have h2 : Inv T0 s' (pre ++ [⟨c', d, s.pipes⟩]) := h1.perm (List.perm_append_singleton _ _).symm
    have hsv : c'.saved = none := by rcases m1 with e | ⟨a, b, e⟩ <;> rw [e] <;> rfl
    have hor : ∀ x, c'.origin = some x → o = some x := by
      rcases m1 with e | ⟨a, b, e⟩ <;> rw [e]
      · intro x hx; cases hx
      · exact fun x hx => hx
    obtain ⟨gs, e, h3, b3, a⟩ := initAll_inv hp rs (pre ++ [⟨c', d, s.pipes⟩]) s' h2 (by
        intro g hg
        rcases List.mem_append.1 hg with hg | hg
        · exact hs g hg
        · rw [List.mem_singleton.1 hg]; exact hsv)
      (by
        cases o with
        | none => exact hn
        | some x => exact (List.nodup_cons.1 hn).2)
      (by
        intro x hx
        have hx' : x ∈ asked ((o, d) :: rs) := by
          cases o with
          | none => exact hx
          | some y => exact List.mem_cons_of_mem _ hx
        refine ⟨fun hm => ?_, (ho x hx').2⟩
        rw [origins, List.filterMap_append, List.mem_append] at hm
        rcases hm with hm | hm
        · exact (ho x hx').1 hm
        · obtain ⟨g, hg, hgx⟩ := List.mem_filterMap.1 hm
          rw [List.mem_singleton.1 hg] at hgx
          have := hor x hgx
          subst this
          exact (List.nodup_cons.1 hn).1 hx)
    rw [List.append_assoc, List.singleton_append] at h3
    have er : initAll pick s ((o, d) :: rs) = (c' :: (initAll pick s' rs).1, (initAll pick s' rs).2) := by
      rw [initAll, e1]
    rw [er]
    refine ⟨⟨c', d, s.pipes⟩ :: gs, by rw [e, List.map_cons], h3, ?_, .cons ⟨rfl, m1⟩ a⟩
    rw [b3, b1, List.filter_cons]
    cases twice c' <;> simp <;> omega

theorem inv_start (s : St) : Inv s.tab s [] :=
  ⟨by simp [own], by simp [own], by simp [origins], by simp [origins], by simp, by simp, by simp, by simp, by simp, fun _ _ _ => rfl⟩

/-- What a channel looks like when the process is made. -/
def Ready (o : Option Nat) (c : Channel) : Prop :=
  c = .new ∨ ∃ sv x y, c = ⟨o, sv, some x, some y⟩ ∧ (sv = none ↔ o = none)

theorem before_inv {pick dpick : Pick} (hp : ∀ t x, pick t = some x → t x = none) (hdp : ∀ t x, dpick t = some x → t x = none)
    {s : St} {rs : List Req} (hn : (asked rs).Nodup) (ho : ∀ x ∈ asked rs, ∃ b, s.tab x = some ⟨b, true⟩)
    (hd : ∀ c ∈ (before pick dpick s rs).1, c.origin ≠ none → c.saved ≠ none) :
    ∃ gs, (before pick dpick s rs).1 = gs.map G.c ∧ Inv s.tab (before pick dpick s rs).2 gs ∧
      (before pick dpick s rs).2.bad = s.bad + ((before pick dpick s rs).1.filter twice).length ∧
      All2 (fun r g => g.d = r.2 ∧ Ready r.1 g.c) rs gs := by
  obtain ⟨gs, e, h, b, a⟩ := initAll_inv hp rs [] s (inv_start s) (by simp) hn fun x hx => ⟨by simp [origins], ho x hx⟩
  have hmade : ∀ g ∈ gs, g.c.saved = none ∧ (g.c.origin ≠ none → g.c.toBeClosed ≠ none) := by
    intro g hg
    obtain ⟨r, _, _, m⟩ := a.right g hg
    rcases m with m | ⟨x, y, m⟩ <;> rw [m] <;> simp [Channel.new]
  have hb : before pick dpick s rs = each (redirect dpick) (initAll pick s rs).2 (gs.map G.c) := by rw [before, e]
  rw [hb] at hd
  obtain ⟨gs', e', h', b', a'⟩ := each_inv (T0 := s.tab) (f := redirect dpick)
    (P := fun c => c.saved = none ∧ (c.origin ≠ none → c.toBeClosed ≠ none)) (R := fun c => c.origin ≠ none → c.saved ≠ none)
    (Q := fun c c' => ∃ sv, c' = { c with saved := sv } ∧ (sv = none ↔ c.origin = none)) (by
      intro s c d k m hI hP hR
      have horig : (redirect dpick s c).1.origin = c.origin := by
        rw [redirect]; split <;> rfl
      exact inv_redirect hdp hI hP.1 hP.2 (horig ▸ hR)) gs [] (initAll pick s rs).2 h hmade hd
  rw [hb]
  refine ⟨gs', e', h', ?_, (a.comp a').imp ?_⟩
  · rw [b', b, e, e']
    congr 1
    clear h' e' b' hd hb hmade h b a e
    induction a' with
    | nil => rfl
    | @cons g g' l m hg _ ih =>
      obtain ⟨_, _, sv, e, _⟩ := hg
      rw [List.map_cons, List.map_cons, List.filter_cons, List.filter_cons, e]
      have : twice { g.c with saved := sv } = twice g.c := rfl
      rw [this]
      cases twice g.c <;> simp [ih]
  · rintro r g ⟨g0, ⟨hd0, m⟩, hd1, _, sv, ec, hsv⟩
    refine ⟨hd1.trans hd0, ?_⟩
    rcases m with m | ⟨x, y, m⟩
    · left
      rw [ec, m, hsv.2 (by rw [m]; rfl)]; rfl
    · right
      refine ⟨sv, x, y, ?_, ?_⟩
      · rw [ec, m]
      · rw [hsv, m]

/-- What a channel looks like while the process runs. -/
def Runs (o : Option Nat) (c : Channel) : Prop := c = .new ∨ ∃ x, c = ⟨o, none, some x, none⟩

theorem running_inv {pick dpick : Pick} (hp : ∀ t x, pick t = some x → t x = none) (hdp : ∀ t x, dpick t = some x → t x = none)
    {s : St} {rs : List Req} (hn : (asked rs).Nodup) (ho : ∀ x ∈ asked rs, ∃ b, s.tab x = some ⟨b, true⟩)
    (hd : ∀ c ∈ (before pick dpick s rs).1, c.origin ≠ none → c.saved ≠ none) :
    ∃ gs, (running pick dpick s rs).1 = gs.map G.c ∧ Inv s.tab (running pick dpick s rs).2 gs ∧
      (running pick dpick s rs).2.bad = s.bad + ((before pick dpick s rs).1.filter twice).length ∧
      All2 (fun r g => g.d = r.2 ∧ Runs r.1 g.c) rs gs := by
  obtain ⟨gs, e, h, b, a⟩ := before_inv hp hdp hn ho hd
  obtain ⟨gs', e', h', b', a'⟩ := each_inv (T0 := s.tab) (f := closeUnused) (P := fun _ => True) (R := fun _ => True)
    (Q := fun c c' => c' = { c with saved := none, toBeClosed := none }) (by
      intro s c d k m hI _ _
      exact inv_closeUnused hI) gs [] _ h (fun _ _ => trivial) fun _ _ => trivial
  have hb : running pick dpick s rs = each closeUnused (before pick dpick s rs).2 (gs.map G.c) := by rw [running, e]
  rw [hb]
  refine ⟨gs', e', h', b'.trans b, (a.comp a').imp ?_⟩
  rintro r g ⟨g0, ⟨hd0, m⟩, hd1, _, ec⟩
  refine ⟨hd1.trans hd0, ?_⟩
  rcases m with m | ⟨sv, x, y, m, _⟩
  · left; rw [ec, m]; rfl
  · right; exact ⟨x, by rw [ec, m]⟩

theorem after_inv {pick dpick : Pick} (hp : ∀ t x, pick t = some x → t x = none) (hdp : ∀ t x, dpick t = some x → t x = none)
    {s : St} {rs : List Req} (hn : (asked rs).Nodup) (ho : ∀ x ∈ asked rs, ∃ b, s.tab x = some ⟨b, true⟩)
    (hd : ∀ c ∈ (before pick dpick s rs).1, c.origin ≠ none → c.saved ≠ none) (done : List Bool) :
    (after pick dpick s rs done).tab = s.tab ∧
      (after pick dpick s rs done).bad = s.bad + ((before pick dpick s rs).1.filter twice).length := by
  obtain ⟨gs, e, h, b, a⟩ := running_inv hp hdp hn ho hd
  obtain ⟨gs1, e1, h1, b1⟩ := closeSome_inv gs [] _ done h
  obtain ⟨gs2, e2, h2, b2, a2⟩ := each_inv (T0 := s.tab) (f := destroy) (P := fun _ => True) (R := fun _ => True)
    (Q := fun _ c' => c'.saved = none ∧ c'.toBeClosed = none ∧ c'.fd = none) (by
      intro s c d k m hI _ _
      obtain ⟨i1, j1, q1⟩ := inv_closeUnused hI
      obtain ⟨i2, j2⟩ := inv_closeFd i1
      refine ⟨i2, j2.trans j1, ?_⟩
      have hq : (destroy s c).1 = (closeFd (closeUnused s c).2 (closeUnused s c).1).1 := rfl
      rw [hq, q1]
      obtain ⟨o, sv, f, t⟩ := c
      cases f <;> exact ⟨rfl, rfl, rfl⟩) gs1 [] _ h1 (fun _ _ => trivial) fun _ _ => trivial
  have er : after pick dpick s rs done = (each destroy (closeSome (running pick dpick s rs).2 done (gs.map G.c)).2 (gs1.map G.c)).2 := by
    simp only [after, e, e1]
  rw [er]
  refine ⟨?_, b2.trans (b1.trans b)⟩
  have hall : ∀ g ∈ gs2, g.c.saved = none ∧ g.c.toBeClosed = none ∧ g.c.fd = none := fun g hg => by
    obtain ⟨_, _, _, _, r⟩ := a2.right g hg
    exact r
  have hown : ∀ x, x ∉ own gs2 := by
    intro x hx
    obtain ⟨g, hg, hx⟩ := List.mem_flatMap.1 hx
    obtain ⟨r1, r2, r3⟩ := hall g hg
    simp [G.own, r1, r2, r3] at hx
  funext x
  exact h2.rest x (hown x) fun g hg r => absurd (hall g hg).1 r

end Lolly.WinFd
