import Verif.System.WinFdLemmas

set_option autoImplicit false

/-!
# C119: descriptors on Windows
-/

namespace Lolly.WinFdProps
open Lolly.WinFd

/-! ## Specification -/

/-- The end of pipe `k` that the caller needs: it writes to what it sends (`CHIN`) and reads what it receives (`CHOUT`). -/
def mine : Dir → Nat → Obj
  | .chin, k => .wr k
  | .chout, k => .rd k

/-- The end of pipe `k` that the process needs. -/
def theirs : Dir → Nat → Obj
  | .chin, k => .rd k
  | .chout, k => .wr k

/-- The descriptors that a process made now inherits. -/
def child (t : Table) : Table := fun x => match t x with
  | some e => if e.inherit then some e else none
  | none => none

/-- The system gives only numbers that are free. -/
def Free (pick : Pick) : Prop := ∀ t x, pick t = some x → t x = none

/-- The numbers that are asked for are different, and the caller has all of them open for processes to inherit. -/
def Asked (t : Table) (rs : List Req) : Prop :=
  (rs.filterMap fun r => r.1).Nodup ∧ ∀ r ∈ rs, ∀ x, r.1 = some x → ∃ b, t x = some ⟨b, true⟩

/-- The caller has no pipes of its own open. -/
def Files (t : Table) : Prop := ∀ x e, t x = some e → ∃ n, e.obj = .file n

/-- Every `_dup` succeeded. -/
def Dups (cs : List Channel) : Prop := ∀ c ∈ cs, c.origin ≠ none → c.saved ≠ none

/-! ## Lemmas -/

theorem endOf_eq (d : Dir) (k : Nat) : endOf d k = mine d k := by cases d <;> rfl

theorem endOf_other (d : Dir) (k : Nat) : endOf (other d) k = theirs d k := by cases d <;> rfl

theorem asked_open {t : Table} {rs : List Req} (h : Asked t rs) : ∀ x ∈ asked rs, ∃ b, t x = some ⟨b, true⟩ := by
  intro x hx
  obtain ⟨r, hr, e⟩ := List.mem_filterMap.1 hx
  exact h.2 r hr x e

theorem child_some {t : Table} {x : Nat} {e : Entry} : child t x = some e ↔ t x = some e ∧ e.inherit = true := by
  rw [child]
  cases h : t x with
  | none => simp
  | some e' =>
    cases hi : e'.inherit <;> simp [hi]
    · rintro rfl; exact hi
    · rintro rfl; exact hi

theorem endOf_inj {d d' : Dir} {k k' : Nat} (h : endOf d k = endOf d' k') : d = d' ∧ k = k' := by
  cases d <;> cases d' <;> simp [endOf] at h <;> exact ⟨rfl, h⟩

theorem other_ne (d : Dir) : other d ≠ d := by cases d <;> decide

theorem same {gs : List G} (h : (gs.map G.k).Nodup) {i j : Nat} {g g' : G} (hi : gs[i]? = some g) (hj : gs[j]? = some g') (e : g.k = g'.k) :
    i = j := by
  have hl : i < (gs.map G.k).length := by
    rw [List.length_map]; exact (List.getElem?_eq_some_iff.1 hi).1
  refine (List.getElem?_inj hl h).1 ?_
  rw [List.getElem?_map, List.getElem?_map, hi, hj, Option.map_some, Option.map_some, e]

theorem same_mem {gs : List G} (h : (gs.map G.k).Nodup) {g g' : G} (hi : g ∈ gs) (hj : g' ∈ gs) (e : g.k = g'.k) : g = g' := by
  obtain ⟨i, hi⟩ := List.getElem?_of_mem hi
  obtain ⟨j, hj⟩ := List.getElem?_of_mem hj
  have := same h hi hj e
  subst this
  rw [hi] at hj
  exact Option.some.inj hj

/-- Under which numbers an end of the pipe of a channel is open. -/
theorem where_is {T0 : Table} {s : St} {gs : List G} (h : Inv T0 s gs) (hf : Files T0) {g : G} (hg : g ∈ gs) {z : Nat} {e : Entry}
    {d : Dir} (hz : s.tab z = some e) (he : e.obj = endOf d g.k) :
    (d = g.d ∧ g.c.fd = some z) ∨ (d = other g.d ∧ g.c.toBeClosed = some z) ∨ (d = other g.d ∧ g.c.origin = some z) := by
  have hfile : ∀ (o : Nat) (b : Entry), T0 o = some b → b.obj ≠ endOf d g.k := by
    intro o b hb e
    obtain ⟨n, hn⟩ := hf o b hb
    rw [e] at hn
    cases d <;> cases hn
  by_cases ho : z ∈ own gs
  · obtain ⟨g', hg', hx⟩ := List.mem_flatMap.1 ho
    simp only [G.own, List.mem_append, Option.mem_toList] at hx
    rcases hx with (hx | hx) | hx
    · have := h.fd g' hg' z hx
      rw [hz] at this
      have hh := endOf_inj (he.symm.trans (congrArg Entry.obj (Option.some.inj this)))
      have := same_mem h.ids hg hg' hh.2
      subst this
      exact .inl ⟨hh.1, hx⟩
    · have := h.tbc g' hg' z hx
      rw [hz] at this
      have hh := endOf_inj (he.symm.trans (congrArg Entry.obj (Option.some.inj this)))
      have := same_mem h.ids hg hg' hh.2
      subst this
      exact .inr (.inl ⟨hh.1, hx⟩)
    · obtain ⟨o, b, _, e2, e3, _⟩ := h.sav g' hg' z hx
      rw [hz] at e3
      rw [Option.some.inj e3] at he
      exact absurd he (hfile o _ e2)
  · by_cases hs : ∃ g' ∈ gs, g'.c.saved ≠ none ∧ g'.c.origin = some z
    · obtain ⟨g', hg', hs', ho'⟩ := hs
      obtain ⟨x, hx⟩ := Option.ne_none_iff_exists'.1 hs'
      obtain ⟨o, b, e1, _, _, e4⟩ := h.sav g' hg' x hx
      rw [ho'] at e1
      cases e1
      rw [hz] at e4
      have hh := endOf_inj (he.symm.trans (congrArg Entry.obj (Option.some.inj e4)))
      have := same_mem h.ids hg hg' hh.2
      subst this
      exact .inr (.inr ⟨hh.1, ho'⟩)
    · have := h.rest z ho fun g' hg' h1 h2 => hs ⟨g', hg', h1, h2⟩
      rw [hz] at this
      exact absurd he (hfile z e this.symm)

/-! ## The process -/

/-- When the process is made, each channel has a pipe of its own. The end of the caller is open under `x` and nowhere else, and is
not inherited; so the process sees the end of what it reads. The end of the process is inherited under the number that was asked
for, or else under the number that `$$i` stands for, and under no other. -/
theorem C119_child_partial {pick dpick : Pick} (hp : Free pick) (hdp : Free dpick) {s : St} {rs : List Req} (ha : Asked s.tab rs)
    (hf : Files s.tab) (hd : Dups (before pick dpick s rs).1) :
    (before pick dpick s rs).1.length = rs.length ∧
    ∃ k : Nat → Nat, (∀ i j, i < rs.length → j < rs.length → k i = k j → i = j) ∧
      ∀ (i : Nat) r d c x, rs[i]? = some (r, d) → (before pick dpick s rs).1[i]? = some c → c.fd = some x →
        ∃ y, (r = some y ∨ r = none ∧ c.toBeClosed = some y) ∧
          (before pick dpick s rs).2.tab x = some ⟨mine d (k i), false⟩ ∧
          child (before pick dpick s rs).2.tab y = some ⟨theirs d (k i), true⟩ ∧
          (∀ z e, (before pick dpick s rs).2.tab z = some e → e.obj = mine d (k i) → z = x) ∧
          (∀ z e, child (before pick dpick s rs).2.tab z = some e → e.obj = theirs d (k i) → z = y) := by
  obtain ⟨gs, e, h, -, a⟩ := before_inv hp hdp ha.1 (asked_open ha) hd
  have hl : gs.length = rs.length := a.length.symm
  refine ⟨by rw [e, List.length_map, hl], fun i => (gs[i]?.map G.k).getD 0, ?_, ?_⟩
  · intro i j hi hj hk
    have ei := List.getElem?_eq_getElem (hl ▸ hi)
    have ej := List.getElem?_eq_getElem (hl ▸ hj)
    refine same h.ids ei ej ?_
    simpa only [ei, ej, Option.map_some, Option.getD_some] using hk
  · intro i r d c x hr hc hx
    obtain ⟨g, hg, hgd, m⟩ := a.get hr
    have hgm := List.mem_of_getElem? hg
    rw [e, List.getElem?_map, hg, Option.map_some] at hc
    cases hc
    simp only at hgd m
    subst hgd
    simp only [hg, Option.map_some, Option.getD_some]
    rcases m with m | ⟨sv, x', y, m, hsv⟩
    · rw [m] at hx; cases hx
    · have hx' : x' = x := by rw [m] at hx; exact Option.some.inj hx
      subst hx'
      have hfd := h.fd g hgm x' hx
      have htb := h.tbc g hgm y (by rw [m])
      rw [endOf_eq] at hfd
      have huniq : ∀ z e, (before pick dpick s rs).2.tab z = some e → e.obj = mine g.d g.k → z = x' := by
        intro z e hz he
        rcases where_is h hf hgm hz (he.trans (endOf_eq _ _).symm) with ⟨_, hz⟩ | ⟨hz, _⟩ | ⟨hz, _⟩
        · rw [hx] at hz; exact (Option.some.inj hz).symm
        · exact absurd hz.symm (other_ne _)
        · exact absurd hz.symm (other_ne _)
      cases r with
      | none =>
        have hor : g.c.origin = none := by rw [m]
        refine ⟨y, .inr ⟨rfl, by rw [m]⟩, hfd, child_some.2 ⟨?_, rfl⟩, huniq, ?_⟩
        · rw [htb, hor, endOf_other]; rfl
        · intro z e hz he
          rcases where_is h hf hgm (child_some.1 hz).1 (he.trans (endOf_other _ _).symm) with ⟨hz, _⟩ | ⟨_, hz⟩ | ⟨_, hz⟩
          · exact absurd hz (other_ne _)
          · rw [m] at hz; exact (Option.some.inj hz).symm
          · rw [hor] at hz; cases hz
      | some o =>
        have hor : g.c.origin = some o := by rw [m]
        cases sv with
        | none => cases hsv.1 rfl
        | some v =>
          obtain ⟨o', b, e1, _, _, e4⟩ := h.sav g hgm v (by rw [m])
          rw [hor] at e1
          cases e1
          refine ⟨o, .inl rfl, hfd, child_some.2 ⟨by rw [e4, endOf_other], rfl⟩, huniq, ?_⟩
          intro z e hz he
          rcases where_is h hf hgm (child_some.1 hz).1 (he.trans (endOf_other _ _).symm) with ⟨hz, _⟩ | ⟨_, hz'⟩ | ⟨_, hz⟩
          · exact absurd hz (other_ne _)
          · have hzy : y = z := by rw [m] at hz'; exact Option.some.inj hz'
            subst hzy
            rw [(child_some.1 hz).1, hor] at htb
            have := (child_some.1 hz).2
            rw [Option.some.inj htb] at this
            cases this
          · rw [hor] at hz; exact (Option.some.inj hz).symm

/-- A caller with the three standard descriptors. -/
def std : Table := fun x => if x < 3 then some ⟨.file x, true⟩ else none

/-- The smallest free number below `n`. -/
def lowest (n : Nat) : Pick := fun t => (List.range n).find? fun x => (t x).isNone

theorem lowest_free (n : Nat) : Free (lowest n) := by
  intro t x h
  have := List.find?_some h
  simpa using this

/-- The conditions hold for a process whose standard input and output are taken, and which also gets a pipe of its own. -/
example : Asked std [(some 0, .chin), (none, .chin), (some 1, .chout)] ∧ Files std ∧
    Dups (before (lowest 16) (lowest 16) ⟨std, 0, 0⟩ [(some 0, .chin), (none, .chin), (some 1, .chout)]).1 ∧
    (before (lowest 16) (lowest 16) ⟨std, 0, 0⟩ [(some 0, .chin), (none, .chin), (some 1, .chout)]).1 =
      [⟨some 0, some 9, some 4, some 3⟩, ⟨none, none, some 6, some 7⟩, ⟨some 1, some 10, some 5, some 8⟩] := by
  refine ⟨⟨by decide, ?_⟩, ?_, ?_, by decide +kernel⟩
  · intro r hr x hx
    simp only [List.mem_cons, List.not_mem_nil, or_false] at hr
    rcases hr with rfl | rfl | rfl <;> cases hx <;> exact ⟨_, rfl⟩
  · intro x e h
    rw [std] at h
    split at h
    · cases h; exact ⟨x, rfl⟩
    · cases h
  · unfold Dups; decide +kernel

/-! ## While the process runs -/

/-- While the process runs, the caller has its own descriptors as before, and in addition only its ends of the pipes, under numbers
that were free; no later process inherits these. -/
theorem C119_running_partial {pick dpick : Pick} (hp : Free pick) (hdp : Free dpick) {s : St} {rs : List Req} (ha : Asked s.tab rs)
    (hd : Dups (before pick dpick s rs).1) :
    (∀ z, (∀ c ∈ (running pick dpick s rs).1, c.fd ≠ some z) → (running pick dpick s rs).2.tab z = s.tab z) ∧
    ∃ k : Nat → Nat, (∀ i j, i < rs.length → j < rs.length → k i = k j → i = j) ∧
      ∀ (i : Nat) r d c x, rs[i]? = some (r, d) → (running pick dpick s rs).1[i]? = some c → c.fd = some x →
        s.tab x = none ∧ (running pick dpick s rs).2.tab x = some ⟨mine d (k i), false⟩ := by
  obtain ⟨gs, e, h, -, a⟩ := running_inv hp hdp ha.1 (asked_open ha) hd
  have hl : gs.length = rs.length := a.length.symm
  have hrun : ∀ g ∈ gs, g.c.saved = none ∧ g.c.toBeClosed = none := by
    intro g hg
    obtain ⟨r, _, _, m⟩ := a.right g hg
    rcases m with m | ⟨x, m⟩ <;> rw [m] <;> exact ⟨rfl, rfl⟩
  refine ⟨?_, fun i => (gs[i]?.map G.k).getD 0, ?_, ?_⟩
  · intro z hz
    refine h.rest z ?_ fun g hg hs => absurd (hrun g hg).1 hs
    intro hm
    obtain ⟨g, hg, hx⟩ := List.mem_flatMap.1 hm
    simp only [G.own, (hrun g hg).1, (hrun g hg).2, Option.toList_none, List.append_nil, Option.mem_toList] at hx
    exact hz g.c (by rw [e]; exact List.mem_map_of_mem hg) hx
  · intro i j hi hj hk
    have ei := List.getElem?_eq_getElem (hl ▸ hi)
    have ej := List.getElem?_eq_getElem (hl ▸ hj)
    refine same h.ids ei ej ?_
    simpa only [ei, ej, Option.map_some, Option.getD_some] using hk
  · intro i r d c x hr hc hx
    obtain ⟨g, hg, hgd, m⟩ := a.get hr
    have hgm := List.mem_of_getElem? hg
    rw [e, List.getElem?_map, hg, Option.map_some] at hc
    cases hc
    simp only at hgd
    subst hgd
    simp only [hg, Option.map_some, Option.getD_some]
    exact ⟨h.fresh x (mem_own hgm (by simp [G.own, hx])), by rw [h.fd g hgm x hx, endOf_eq]⟩

/-! ## Afterwards -/

/-- Afterwards the caller has exactly the descriptors of before, whichever channels were closed in between. Numbers that are not
open are closed once for each channel without a number, hence never if all have one. -/
theorem C119_after_partial {pick dpick : Pick} (hp : Free pick) (hdp : Free dpick) {s : St} {rs : List Req} (ha : Asked s.tab rs)
    (hd : Dups (before pick dpick s rs).1) (done : List Bool) :
    (after pick dpick s rs done).tab = s.tab ∧ ((∀ r ∈ rs, r.1 ≠ none) → (after pick dpick s rs done).bad = s.bad) := by
  obtain ⟨h1, h2⟩ := after_inv hp hdp ha.1 (asked_open ha) hd done
  refine ⟨h1, fun hr => ?_⟩
  rw [h2]
  obtain ⟨gs, e, _, -, a⟩ := before_inv hp hdp ha.1 (asked_open ha) hd
  rw [e, List.filter_eq_nil_iff.2]
  · rfl
  · intro c hc
    obtain ⟨g, hg, rfl⟩ := List.mem_map.1 hc
    obtain ⟨r, hrm, _, m⟩ := a.right g hg
    rcases m with m | ⟨sv, x, y, m, _⟩ <;> rw [m]
    · simp [twice, Channel.new]
    · have := hr r hrm
      cases hr1 : r.1 with
      | none => exact absurd hr1 this
      | some o => simp [twice]

/-- The table is changed in between: the standard input of the caller is the pipe while the process is made. -/
example : (before (lowest 16) (lowest 16) ⟨std, 0, 0⟩ [(some 0, .chin)]).2.tab 0 = some ⟨.rd 0, true⟩ ∧
    (running (lowest 16) (lowest 16) ⟨std, 0, 0⟩ [(some 0, .chin)]).2.tab 0 = some ⟨.file 0, true⟩ ∧
    (running (lowest 16) (lowest 16) ⟨std, 0, 0⟩ [(some 0, .chin)]).2.tab 4 = some ⟨.wr 0, false⟩ ∧
    (after (lowest 16) (lowest 16) ⟨std, 0, 0⟩ [(some 0, .chin)] [true]).tab 4 = none := by
  decide +kernel

/-! ## Where it fails -/

/-- If the number asked for is not open in the caller, there is nothing to save: the caller keeps the end of the process under it,
also afterwards. For an output this means that the caller itself holds the writing end, so that the end of the data is never
seen. -/
theorem C119_closed_violated :
    (running (lowest 16) (lowest 16) ⟨std, 0, 0⟩ [(some 7, .chout)]).2.tab 7 = some ⟨theirs .chout 0, true⟩ ∧
    (after (lowest 16) (lowest 16) ⟨std, 0, 0⟩ [(some 7, .chout)] [true]).tab 7 = some ⟨theirs .chout 0, true⟩ ∧
    std 7 = none := by
  decide +kernel

/-- If the number asked for is free, the pipe itself may get it. The process then does not get its end at all, and the caller keeps
it. -/
theorem C119_clash_violated :
    child (before (lowest 16) (lowest 16) ⟨std, 0, 0⟩ [(some 3, .chin)]).2.tab 3 = none ∧
    (after (lowest 16) (lowest 16) ⟨std, 0, 0⟩ [(some 3, .chin)] [true]).tab 3 = some ⟨theirs .chin 0, true⟩ := by
  decide +kernel

/-- A channel without a number always closes a number that is no longer open: in the meantime another thread may have opened a file
under it. -/
theorem C119_twice_violated {pick dpick : Pick} (hp : Free pick) (hdp : Free dpick) {s : St} {d : Dir}
    (h : ∀ c ∈ (before pick dpick s [(none, d)]).1, c.fd ≠ none) (done : List Bool) :
    (after pick dpick s [(none, d)] done).bad = s.bad + 1 := by
  have ha : Asked s.tab [(none, d)] := by
    refine ⟨by simp, ?_⟩
    intro r hr x hx
    rw [List.mem_singleton.1 hr] at hx; cases hx
  have hmade : (initAll pick s [(none, d)]).1 = [(initAny pick s d).1] := rfl
  have hor : ∀ c ∈ (before pick dpick s [(none, d)]).1, c.origin = none := by
    intro c hc
    have hm := (inv_initAny (d := d) hp (inv_start s) (by simp)).2.2
    have hb : (before pick dpick s [(none, d)]).1 = [(redirect dpick (initAll pick s [(none, d)]).2 (initAny pick s d).1).1] := rfl
    rw [hb, List.mem_singleton] at hc
    subst hc
    rcases hm with m | ⟨x, y, m⟩ <;> rw [m] <;> rfl
  have hd : Dups (before pick dpick s [(none, d)]).1 := fun c hc ho => absurd (hor c hc) ho
  rw [(after_inv hp hdp ha.1 (asked_open ha) hd done).2]
  have hb : (before pick dpick s [(none, d)]).1 = [(redirect dpick (initAll pick s [(none, d)]).2 (initAny pick s d).1).1] := rfl
  rw [hb] at h hor ⊢
  have h1 := h _ List.mem_cons_self
  have h2 := hor _ List.mem_cons_self
  obtain ⟨x, hx⟩ := Option.ne_none_iff_exists'.1 h1
  rw [List.filter_cons, if_pos (by simp [twice, hx, h2])]
  rfl

example : ∀ c ∈ (before (lowest 16) (lowest 16) ⟨std, 0, 0⟩ [(none, .chin)]).1, c.fd ≠ none := by decide +kernel

/-- The process also inherits the copies that the caller keeps of its own descriptors, under numbers nobody asked for. -/
theorem C119_saved_violated :
    child (before (lowest 16) (lowest 16) ⟨std, 0, 0⟩ [(some 0, .chin)]).2.tab 5 = some ⟨.file 0, true⟩ ∧ std 5 = none := by
  decide +kernel

/-- A descriptor that processes do not inherit is inherited after it was redirected once. -/
theorem C119_inherit_violated :
    (after (lowest 16) (lowest 16) ⟨put std 0 (some ⟨.file 0, false⟩), 0, 0⟩ [(some 0, .chin)] [true]).tab 0 = some ⟨.file 0, true⟩ := by
  decide +kernel

/-- If there is no number left for `_dup`, the descriptor of the caller is lost: it stays the end of the process. -/
theorem C119_full_violated :
    (after (lowest 5) (lowest 5) ⟨std, 0, 0⟩ [(some 0, .chin)] [true]).tab 0 = some ⟨theirs .chin 0, true⟩ := by
  decide +kernel

end Lolly.WinFdProps
