import Verif.System.OstreamLemmas

set_option autoImplicit false

/-!
# Output streams: programs
-/

namespace Lolly.Ostream

/-- The kind without what changes by writing. -/
def shape : Kind → Kind
  | .std k _ own => .std k true own
  | .buf m _ => .buf m []

def sig (r : Rep) : Int × Bool × Kind := (r.count, r.alive, shape r.kind)

theorem get_of_map {A B : Type} {f : A → B} {l l' : List A} (h : l'.map f = l.map f) {i : Nat} {x : A} (hx : l'[i]? = some x) :
    ∃ y, l[i]? = some y ∧ f y = f x := by
  have := congrArg (fun l => l[i]?) h
  simp only [List.getElem?_map, hx, Option.map_some] at this
  cases hy : l[i]? with
  | none => rw [hy] at this; simp at this
  | some y =>
    rw [hy] at this
    simp only [Option.map_some, Option.some.injEq] at this
    exact ⟨y, rfl, this.symm⟩

theorem none_of_map {A B : Type} {f : A → B} {l l' : List A} (h : l'.map f = l.map f) {i : Nat} (hx : l'[i]? = none) :
    l[i]? = none := by
  have := congrArg List.length h
  simp only [List.length_map] at this
  rw [List.getElem?_eq_none_iff] at hx ⊢
  omega

theorem holds_sig {r r' : Rep} (h : sig r = sig r') (p : Nat) : holds p r = holds p r' := by
  obtain ⟨c, k, a⟩ := r
  obtain ⟨c', k', a'⟩ := r'
  simp only [sig, Prod.mk.injEq] at h
  obtain ⟨-, rfl, h⟩ := h
  cases k <;> cases k' <;> simp [shape] at h <;> cases a <;> simp [holds, h]

theorem held_sig {reps reps' : List Rep} (h : reps'.map sig = reps.map sig) (p : Nat) : held reps' p = held reps p := by
  unfold held
  induction reps generalizing reps' with
  | nil => simp at h; simp [h]
  | cons a l ih =>
    cases reps' with
    | nil => simp at h
    | cons b l' =>
      simp only [List.map_cons, List.cons.injEq] at h
      simp only [List.map_cons, List.sum_cons, ih h.2, holds_sig h.1]

theorem sig_buf {r r' : Rep} (h : sig r = sig r') {m : Nat} {d : Bytes} (hk : r'.kind = .buf m d) : ∃ d', r.kind = .buf m d' := by
  obtain ⟨c, k, a⟩ := r
  simp only [sig, Prod.mk.injEq, hk] at h
  cases k with
  | std => simp [shape] at h
  | buf m' d' => simp [shape] at h; exact ⟨d', by simp [h]⟩

theorem sig_std {r r' : Rep} (h : sig r = sig r') {k : Option Nat} {w o : Bool} (hk : r'.kind = .std k w o) :
    ∃ w', r.kind = .std k w' o := by
  obtain ⟨c, κ, a⟩ := r
  simp only [sig, Prod.mk.injEq, hk] at h
  cases κ with
  | std k' w' o' => simp [shape] at h; exact ⟨w', by simp [h]⟩
  | buf m' d' => simp [shape] at h

/-- Writing keeps the invariant. -/
theorem Inv.congr {n : Nat} {vars : List Nat} {reps reps' : List Rep} {files files' : List File} (h : Inv n vars reps files)
    (hr : reps'.map sig = reps.map sig) (hf : files'.map (·.isOpen) = files.map (·.isOpen)) : Inv n vars reps' files' := by
  have hlen : files'.length = files.length := by simpa using congrArg List.length hf
  refine ⟨?_, ?_, ?_, ?_, ?_, ?_, ?_, ?_, ?_⟩
  · intro id hid
    rw [held_sig hr]
    exact h.none id (none_of_map hr hid)
  · intro id r hid ha
    obtain ⟨y, hy, hs⟩ := get_of_map hr hid
    simp only [sig, Prod.mk.injEq] at hs
    rw [held_sig hr, ← hs.1]
    exact h.alive id y hy (hs.2.1.trans ha)
  · intro id r hid ha
    obtain ⟨y, hy, hs⟩ := get_of_map hr hid
    simp only [sig, Prod.mk.injEq] at hs
    rw [held_sig hr]
    exact h.dead id y hy (hs.2.1.trans ha)
  · intro id r m d hid hk
    obtain ⟨y, hy, hs⟩ := get_of_map hr hid
    obtain ⟨d', hk'⟩ := sig_buf hs hk
    exact h.older id y m d' hy hk'
  · intro id r k w hid hk
    obtain ⟨y, hy, hs⟩ := get_of_map hr hid
    obtain ⟨w', hk'⟩ := sig_std hs hk
    exact h.given id y k w' hy hk'
  · intro id r k w hid hk
    obtain ⟨y, hy, hs⟩ := get_of_map hr hid
    obtain ⟨w', hk'⟩ := sig_std hs hk
    obtain ⟨h1, f, h2, h3⟩ := h.mine id y k w' hy hk'
    obtain ⟨f', h4, h5⟩ := get_of_map hf.symm h2
    simp only [sig, Prod.mk.injEq] at hs
    exact ⟨h1, f', h4, h5.trans (h3.trans hs.2.1)⟩
  · intro id id' r r' k w w' hid hid' hk hk'
    obtain ⟨y, hy, hs⟩ := get_of_map hr hid
    obtain ⟨y', hy', hs'⟩ := get_of_map hr hid'
    obtain ⟨v, hv⟩ := sig_std hs hk
    obtain ⟨v', hv'⟩ := sig_std hs' hk'
    exact h.one id id' y y' k v v' hy hy' hv hv'
  · intro k hk
    obtain ⟨f, h1, h2⟩ := h.first k hk
    obtain ⟨f', h3, h4⟩ := get_of_map hf.symm h1
    exact ⟨f', h3, h4.trans h2⟩
  · intro k hk hk'
    obtain ⟨id, r, w, h1, h2⟩ := h.owned k hk (by omega)
    obtain ⟨r', h3, h4⟩ := get_of_map hr.symm h1
    obtain ⟨w', h5⟩ := sig_std h4 h2
    exact ⟨id, r', w', h3, h5⟩

/-- A new stream object. -/
theorem Inv.push {n : Nat} {vars vars' : List Nat} {reps : List Rep} {files fs : List File} {κ : Kind} (h : Inv n vars reps files)
    (h1 : ∀ p, p < reps.length → vars'.count p + holds p ⟨1, κ, true⟩ = vars.count p)
    (h2 : vars'.count reps.length = 1) (h3 : ∀ p, reps.length < p → vars'.count p = 0)
    (hb : ∀ m d, κ = .buf m d → m < reps.length) (hg : ∀ k w, κ = .std (some k) w false → k < n)
    (hn : n ≤ files.length) (hm : (∃ w, κ = .std (some files.length) w true ∧ fs = [⟨[], true⟩]) ∨ ((∀ k w, κ ≠ .std (some k) w true) ∧ fs = [])) :
    Inv n vars' (reps ++ [⟨1, κ, true⟩]) (files ++ fs) := by
  have hold0 : ∀ p, reps.length ≤ p → holds p ⟨1, κ, true⟩ = 0 := by
    intro p hp
    cases κ with
    | std => rfl
    | buf m d =>
      have := hb m d rfl
      simp only [holds]
      rw [if_neg (by omega)]
  have hget : ∀ (j : Nat) (x : Rep), (reps ++ [⟨1, κ, true⟩])[j]? = some x →
      (j < reps.length ∧ reps[j]? = some x) ∨ (j = reps.length ∧ x = ⟨1, κ, true⟩) := by
    intro j x hx
    rcases Nat.lt_trichotomy j reps.length with hj | hj | hj
    · rw [List.getElem?_append_left hj] at hx; exact .inl ⟨hj, hx⟩
    · subst hj; simp at hx; exact .inr ⟨rfl, hx.symm⟩
    · rw [List.getElem?_eq_none (by simp; omega)] at hx; cases hx
  have hcnt : ∀ p, p < reps.length → vars'.count p + held (reps ++ [⟨1, κ, true⟩]) p = vars.count p + held reps p := by
    intro p hp
    rw [held_append]
    have := h1 p hp
    omega
  have hfile : ∀ (k : Nat) (f : File), files[k]? = some f → (files ++ fs)[k]? = some f := by
    intro k f hf
    rw [List.getElem?_append_left (List.getElem?_eq_some_iff.1 hf).1]
    exact hf
  refine ⟨?_, ?_, ?_, ?_, ?_, ?_, ?_, ?_, ?_⟩
  · intro p hp
    have hge : reps.length < p := by
      have := List.getElem?_eq_none_iff.1 hp
      simp at this
      omega
    rw [held_append, h3 p hge, hold0 p (by omega)]
    have := h.none p (List.getElem?_eq_none (by omega))
    omega
  · intro j x hx ha
    rcases hget j x hx with ⟨hj, hx⟩ | ⟨rfl, rfl⟩
    · rw [hcnt j hj]; exact h.alive j x hx ha
    · have := h.none reps.length (by simp)
      rw [held_append, h2, hold0 _ (Nat.le_refl _)]
      have : held reps reps.length = 0 := by omega
      rw [this]
      exact ⟨rfl, by omega⟩
  · intro j x hx ha
    rcases hget j x hx with ⟨hj, hx⟩ | ⟨rfl, rfl⟩
    · rw [hcnt j hj]; exact h.dead j x hx ha
    · cases ha
  · intro j x m d hx hk
    rcases hget j x hx with ⟨hj, hx⟩ | ⟨rfl, rfl⟩
    · exact h.older j x m d hx hk
    · exact hb m d hk
  · intro j x k w hx hk
    rcases hget j x hx with ⟨hj, hx⟩ | ⟨rfl, rfl⟩
    · exact h.given j x k w hx hk
    · exact hg k w hk
  · intro j x k w hx hk
    rcases hget j x hx with ⟨hj, hx⟩ | ⟨rfl, rfl⟩
    · obtain ⟨e1, f, e2, e3⟩ := h.mine j x k w hx hk
      exact ⟨e1, f, hfile k f e2, e3⟩
    · rcases hm with ⟨w', hm, rfl⟩ | ⟨hm, -⟩
      · simp only at hk
        rw [hm] at hk
        injection hk with hk
        injection hk with hk
        subst hk
        exact ⟨hn, ⟨[], true⟩, by simp, rfl⟩
      · exact absurd hk (hm k w)
  · intro j j' x x' k w w' hx hx' hk hk'
    rcases hget j x hx with ⟨hj, hx⟩ | ⟨rfl, rfl⟩
    · rcases hget j' x' hx' with ⟨hj', hx'⟩ | ⟨rfl, rfl⟩
      · exact h.one j j' x x' k w w' hx hx' hk hk'
      · rcases hm with ⟨w'', hm, rfl⟩ | ⟨hm, -⟩
        · simp only at hk'
          rw [hm] at hk'
          injection hk' with hk'
          injection hk' with hk'
          subst hk'
          obtain ⟨-, f, e2, -⟩ := h.mine j x _ w hx hk
          simp at e2
        · exact absurd hk' (hm k w')
    · rcases hget j' x' hx' with ⟨hj', hx'⟩ | ⟨rfl, rfl⟩
      · rcases hm with ⟨w'', hm, rfl⟩ | ⟨hm, -⟩
        · simp only at hk
          rw [hm] at hk
          injection hk with hk
          injection hk with hk
          subst hk
          obtain ⟨-, f, e2, -⟩ := h.mine j' x' _ w' hx' hk'
          simp at e2
        · exact absurd hk (hm k w)
      · rfl
  · intro k hk
    obtain ⟨f, e1, e2⟩ := h.first k hk
    exact ⟨f, hfile k f e1, e2⟩
  · intro k hk hk'
    rcases Nat.lt_or_ge k files.length with hlt | hge
    · obtain ⟨j, x, w, e1, e2⟩ := h.owned k hk hlt
      exact ⟨j, x, w, by rw [List.getElem?_append_left (List.getElem?_eq_some_iff.1 e1).1]; exact e1, e2⟩
    · rcases hm with ⟨w', hm, rfl⟩ | ⟨hm, rfl⟩
      · simp at hk'
        have : k = files.length := by omega
        subst this
        exact ⟨reps.length, ⟨1, κ, true⟩, w', by simp, hm⟩
      · simp at hk'
        omega

def toStream : Kind → Stream
  | .std k w _ => .file k w
  | .buf m d => .buffer m d

/-- The program and the one without counts. -/
structure Rel (n : Nat) (w : World) (t : SWorld) : Prop where
  vars : w.vars = t.vars
  len : w.reps.length = t.streams.length
  files : t.files = w.files.map (·.out)
  inv : Inv n w.vars w.reps w.files
  kinds : ∀ (id : Nat) (r : Rep), w.reps[id]? = some r → t.streams[id]? = some (toStream r.kind) ∨ r.alive = false
  many : n ≤ w.files.length

theorem Rel.alive_var {n : Nat} {w : World} {t : SWorld} (h : Rel n w t) {i id : Nat} (hi : w.vars[i]? = some id) :
    ∃ r : Rep, w.reps[id]? = some r ∧ r.alive = true ∧ t.streams[id]? = some (toStream r.kind) := by
  have hp : 0 < w.vars.count id := List.count_pos_iff.2 (List.mem_of_getElem? hi)
  cases hr : w.reps[id]? with
  | none => have := h.inv.none id hr; omega
  | some r =>
    cases ha : r.alive with
    | false => have := h.inv.dead id r hr ha; omega
    | true =>
      rcases h.kinds id r hr with hk | hk
      · exact ⟨r, rfl, ha, hk⟩
      · rw [ha] at hk; cases hk

theorem map_set_same {A B : Type} (f : A → B) {l : List A} {i : Nat} {x y : A} (h : l[i]? = some x) (hf : f y = f x) :
    (l.set i y).map f = l.map f := by
  induction l generalizing i with
  | nil => rfl
  | cons a l ih =>
    cases i with
    | zero => simp at h; subst h; simp [hf]
    | succ i => simp at h; simp [ih h]

theorem write_rel {n : Nat} {fails : Nat → Bytes → Bytes → Option Nat} {w : World} {t : SWorld} (h : Rel n w t) {i id : Nat}
    (hi : w.vars[i]? = some id) (s : Bytes) :
    ∃ w', writeRep fails w id s = .ok w' ∧ Rel n w' (emit fails t id s) ∧ w'.vars = w.vars := by
  obtain ⟨r, hr, ha, hk⟩ := h.alive_var hi
  have hlt : id < w.reps.length := (List.getElem?_eq_some_iff.1 hr).1
  have hlt' : id < t.streams.length := by rw [← h.len]; exact hlt
  cases hkind : r.kind with
  | buf m d =>
    rw [hkind, toStream] at hk
    refine ⟨{ w with reps := w.reps.set id { r with kind := .buf m (d ++ s) } }, ?_, ?_, rfl⟩
    · rw [writeRep, hr]
      simp only [ha, hkind, Bool.not_true, Bool.false_eq_true, if_false]
    · rw [emit, hk]
      refine ⟨h.vars, by simp [h.len], h.files, ?_, ?_, h.many⟩
      · exact h.inv.congr (map_set_same sig hr (by simp [sig, hkind, shape])) rfl
      · intro j x hx
        simp only at hx ⊢
        rw [List.getElem?_set] at hx ⊢
        by_cases hj : id = j
        · subst hj
          simp only [if_true, hlt, Option.some.injEq] at hx
          subst hx
          simp [hlt', toStream]
        · rw [if_neg hj] at hx ⊢
          exact h.kinds j x hx
  | std file isW own =>
    rw [hkind, toStream] at hk
    cases file with
    | none =>
      refine ⟨w, ?_, ?_, rfl⟩
      · rw [writeRep, hr]
        simp only [ha, hkind, Bool.not_true, Bool.false_eq_true, if_false]
      · rw [emit, hk]; exact h
    | some k =>
    cases isW with
    | false =>
      refine ⟨w, ?_, ?_, rfl⟩
      · rw [writeRep, hr]
        simp only [ha, hkind, Bool.not_true, Bool.not_false, Bool.false_eq_true, if_false, if_true]
      · rw [emit, hk]; exact h
    | true =>
      have hf : ∃ f : File, w.files[k]? = some f ∧ f.isOpen = true := by
        cases own with
        | true =>
          obtain ⟨-, f, h1, h2⟩ := h.inv.mine id r k true hr hkind
          exact ⟨f, h1, h2.trans ha⟩
        | false => exact h.inv.first k (h.inv.given id r k true hr hkind)
      obtain ⟨f, hf, ho⟩ := hf
      have hklt : k < w.files.length := (List.getElem?_eq_some_iff.1 hf).1
      have hfs : t.files[k]? = some f.out := by rw [h.files]; simp [hf]
      have hopen : ∀ out, (w.files.set k { f with out := out }).map (·.isOpen) = w.files.map (·.isOpen) := fun out =>
        map_set_same (fun f : File => f.isOpen) hf rfl
      have hout : ∀ out, t.files.set k out = (w.files.set k { f with out := out }).map (·.out) := by
        intro out; rw [h.files, List.map_set]
      by_cases hs : s = []
      · refine ⟨w, ?_, ?_, rfl⟩
        · rw [writeRep, hr]
          simp only [ha, hkind, Bool.not_true, Bool.false_eq_true, if_false, hf, ho, hs, if_true]
        · rw [emit, hk]; simp only [hfs, hs, if_true]; exact h
      · cases hfail : fails k f.out s with
        | none =>
          refine ⟨{ w with files := w.files.set k { f with out := f.out ++ s } }, ?_, ?_, rfl⟩
          · rw [writeRep, hr]
            simp only [ha, hkind, Bool.not_true, Bool.false_eq_true, if_false, hf, ho, hs, hfail]
          · rw [emit, hk]
            simp only [hfs, hs, if_false, hfail]
            exact ⟨h.vars, h.len, hout _, h.inv.congr rfl (hopen _), h.kinds, by simpa using h.many⟩
        | some a =>
          refine ⟨{ w with
              files := w.files.set k { f with out := f.out ++ s.take a }
              reps := w.reps.set id { r with kind := .std (some k) false own } }, ?_, ?_, rfl⟩
          · rw [writeRep, hr]
            simp only [ha, hkind, Bool.not_true, Bool.false_eq_true, if_false, hf, ho, hs, hfail]
          · rw [emit, hk]
            simp only [hfs, hs, if_false, hfail]
            refine ⟨h.vars, by simp [h.len], hout _, ?_, ?_, by simpa using h.many⟩
            · exact h.inv.congr (map_set_same sig hr (by simp [sig, hkind, shape])) (hopen _)
            · intro j x hx
              simp only at hx ⊢
              rw [List.getElem?_set] at hx ⊢
              by_cases hj : id = j
              · subst hj
                simp only [if_true, hlt, Option.some.injEq] at hx
                subst hx
                simp [hlt', toStream]
              · rw [if_neg hj] at hx ⊢
                exact h.kinds j x hx

theorem emit_nil (fails : Nat → Bytes → Bytes → Option Nat) (t : SWorld) (id : Nat) : emit fails t id [] = t := by
  unfold emit
  split
  · next b d h =>
    rw [List.append_nil]
    have : t.streams.set id (.buffer b d) = t.streams := by
      apply List.ext_getElem?
      intro i
      rw [List.getElem?_set]
      split
      · next hi => subst hi; rw [h]; simp [(List.getElem?_eq_some_iff.1 h).1]
      · rfl
    rw [this]
  · split
    · simp
    · rfl
  · rfl

theorem writeString_rel {n : Nat} {fails : Nat → Bytes → Bytes → Option Nat} {w : World} {t : SWorld} (h : Rel n w t) {i id : Nat}
    (hi : w.vars[i]? = some id) (s : Bytes) :
    ∃ w', writeString fails w id s = .ok w' ∧ Rel n w' (emitString fails t id s) ∧ w'.vars = w.vars := by
  induction s generalizing w t with
  | nil => exact ⟨w, rfl, h, rfl⟩
  | cons c s ih =>
    obtain ⟨w1, e1, h1, v1⟩ := write_rel (fails := fails) h hi (cstr [c])
    obtain ⟨w2, e2, h2, v2⟩ := ih h1 (by rw [v1]; exact hi)
    refine ⟨w2, by rw [writeString, e1, Res.ok_bind, e2], ?_, v2.trans v1⟩
    by_cases hc : c = 0
    · have : cstr [c] = [] := by simp [cstr, hc]
      rw [this, emit_nil] at h2
      simpa [emitString, hc] using h2
    · have : cstr [c] = [c] := by simp [cstr, hc]
      rw [this] at h2
      simpa [emitString, hc] using h2

theorem count_set {l : List Nat} {i x : Nat} (hi : l[i]? = some x) (y p : Nat) :
    (l.set i y).count p + (if x = p then 1 else 0) = l.count p + (if y = p then 1 else 0) := by
  induction l generalizing i with
  | nil => simp at hi
  | cons a l ih =>
    cases i with
    | zero =>
      simp only [List.getElem?_cons_zero, Option.some.injEq] at hi
      subst hi
      simp only [List.set_cons_zero, List.count_cons, beq_iff_eq]
      omega
    | succ i =>
      simp only [List.getElem?_cons_succ] at hi
      simp only [List.set_cons_succ, List.count_cons, beq_iff_eq]
      have := ih hi
      omega

theorem count_eraseIdx {l : List Nat} {i x : Nat} (hi : l[i]? = some x) (p : Nat) :
    (l.eraseIdx i).count p + (if x = p then 1 else 0) = l.count p := by
  induction l generalizing i with
  | nil => simp at hi
  | cons a l ih =>
    cases i with
    | zero =>
      simp only [List.getElem?_cons_zero, Option.some.injEq] at hi
      subst hi
      simp only [List.eraseIdx_cons_zero, List.count_cons, beq_iff_eq]
    | succ i =>
      simp only [List.getElem?_cons_succ] at hi
      simp only [List.eraseIdx_cons_succ, List.count_cons, beq_iff_eq]
      have := ih hi
      omega

/-- Only the number of handles matters. -/
theorem Inv.vars {n : Nat} {vars vars' : List Nat} {reps : List Rep} {files : List File} (h : Inv n vars reps files)
    (hv : ∀ p, vars'.count p = vars.count p) : Inv n vars' reps files :=
  ⟨fun id hid => by rw [hv]; exact h.none id hid, fun id r hid ha => by rw [hv]; exact h.alive id r hid ha,
    fun id r hid ha => by rw [hv]; exact h.dead id r hid ha, h.older, h.given, h.mine, h.one, h.first, h.owned⟩

theorem vars_le {n : Nat} {vars : List Nat} {reps : List Rep} {files : List File} (h : Inv n vars reps files) {p : Nat}
    (hp : reps.length ≤ p) : vars.count p = 0 := by
  have := h.none p (List.getElem?_eq_none hp)
  omega

/-- A new standard stream. -/
theorem push_std {n : Nat} {w : World} {t : SWorld} (h : Rel n w t) {κ : Kind} {fs : List File} (hk : ∀ m d, κ ≠ .buf m d)
    (hg : ∀ k v, κ = .std (some k) v false → k < n)
    (hm : (∃ v, κ = .std (some w.files.length) v true ∧ fs = [⟨[], true⟩]) ∨ ((∀ k v, κ ≠ .std (some k) v true) ∧ fs = [])) :
    Rel n ⟨w.vars ++ [w.reps.length], w.reps ++ [⟨1, κ, true⟩], w.files ++ fs⟩
      ⟨t.vars ++ [t.streams.length], t.streams ++ [toStream κ], t.files ++ fs.map (·.out)⟩ := by
  refine ⟨by simp [h.vars, h.len], by simp [h.len], by simp [h.files], ?_, ?_, by have := h.many; simp; omega⟩
  · refine h.inv.push ?_ ?_ ?_ ?_ hg h.many hm
    · intro p hp
      have e : holds p ⟨1, κ, true⟩ = 0 := by
        cases κ with
        | std => rfl
        | buf m d => exact absurd rfl (hk m d)
      have : ¬ w.reps.length = p := by omega
      rw [e]
      simp [this]
    · simp [vars_le h.inv (Nat.le_refl _)]
    · intro p hp
      have : ¬ w.reps.length = p := by omega
      simp [vars_le h.inv (Nat.le_of_lt hp), this]
    · intro m d hmd; exact absurd hmd (hk m d)
  · intro j x hx
    simp only at hx ⊢
    rcases Nat.lt_trichotomy j w.reps.length with hj | hj | hj
    · rw [List.getElem?_append_left hj] at hx
      rw [List.getElem?_append_left (by rw [← h.len]; exact hj)]
      exact h.kinds j x hx
    · subst hj
      simp at hx
      subst hx
      rw [h.len]
      simp
    · rw [List.getElem?_eq_none (by simp; omega)] at hx; cases hx

theorem Rel.older {n : Nat} {w : World} {t : SWorld} (h : Rel n w t) {vars : List Nat} {reps : List Rep} {files : List File}
    (hi : Inv n vars reps files) (ho : Older w.reps reps) (hs : SameOut w.files files) :
    Rel n ⟨vars, reps, files⟩ ⟨vars, t.streams, t.files⟩ := by
  refine ⟨rfl, ho.1.trans h.len, by rw [h.files]; exact hs.symm, hi, ?_, ?_⟩
  · intro j x hx
    obtain ⟨x0, e, k, a⟩ := ho.2 j x hx
    rcases h.kinds j x0 e with h1 | h1
    · left; simp only; rw [h1, k]
    · right
      cases hxa : x.alive with
      | false => rfl
      | true => rw [a hxa] at h1; cases h1
  · have := congrArg List.length hs
    simp at this
    have := h.many
    simp only
    omega

theorem step_rel {n : Nat} {fails : Nat → Bytes → Bytes → Option Nat} {w : World} {t t' : SWorld} {op : Op} {out : List Bytes}
    (h : Rel n w t) (hs : sstep fails n t op = some (t', out)) :
    ∃ w', step fails w op = .ok (w', out) ∧ Rel n w' t' := by
  cases op with
  | sink =>
    injection hs with hs
    injection hs with h1 h2
    subst h1 h2
    refine ⟨_, rfl, ?_⟩
    have := push_std h (κ := .std none true true) (fs := []) (by simp) (by simp) (.inr ⟨by simp, rfl⟩)
    simpa [toStream] using this
  | file k =>
    simp only [sstep] at hs
    split at hs
    · next hk =>
      injection hs with hs
      injection hs with h1 h2
      subst h1 h2
      refine ⟨_, rfl, ?_⟩
      have := push_std h (κ := .std (some k) true false) (fs := []) (by simp) (by simp; omega) (.inr ⟨by simp, rfl⟩)
      simpa [toStream] using this
    · cases hs
  | create ok =>
    cases ok with
    | true =>
      injection hs with hs
      injection hs with h1 h2
      subst h1 h2
      refine ⟨_, rfl, ?_⟩
      have := push_std h (κ := .std (some w.files.length) true true) (fs := [⟨[], true⟩]) (by simp) (by simp) (.inl ⟨true, rfl, rfl⟩)
      have hl : w.files.length = t.files.length := by rw [h.files]; simp
      simpa [toStream, hl] using this
    | false =>
      injection hs with hs
      injection hs with h1 h2
      subst h1 h2
      refine ⟨_, rfl, ?_⟩
      have := push_std h (κ := .std none false false) (fs := []) (by simp) (by simp) (.inr ⟨by simp, rfl⟩)
      simpa [toStream] using this
  | copy i =>
    simp only [sstep] at hs
    cases hi : t.vars[i]? with
    | none => rw [hi] at hs; simp at hs
    | some id =>
      rw [hi] at hs
      simp only [Option.map_some, Option.some.injEq, Prod.mk.injEq] at hs
      obtain ⟨rfl, rfl⟩ := hs
      have hi' : w.vars[i]? = some id := by rw [h.vars]; exact hi
      have hp : 0 < w.vars.count id := List.count_pos_iff.2 (List.mem_of_getElem? hi')
      obtain ⟨reps, e, hinv, hold, -⟩ := inc_ok h.inv (id := id) (by omega)
      refine ⟨⟨w.vars ++ [id], reps, w.files⟩, ?_, ?_⟩
      · simp only [step, var, hi']
        rw [Res.ok_bind, e, Res.ok_bind]
      · have := h.older (hinv.vars (vars' := w.vars ++ [id]) (by intro p; simp [List.count_append, List.count_cons])) hold rfl
        rw [h.vars] at this ⊢
        exact this
  | drop i =>
    simp only [sstep] at hs
    split at hs
    · next hi =>
      injection hs with hs
      injection hs with h1 h2
      subst h1 h2
      have hi' : i < w.vars.length := by rw [h.vars]; exact hi
      have hget : w.vars[i]? = some w.vars[i] := List.getElem?_eq_getElem hi'
      obtain ⟨reps, files, e, hinv, hold, hsame⟩ := release_ok (id := w.vars[i]) (vars := w.vars.eraseIdx i) (h.inv.vars (by
        intro p
        have := count_eraseIdx hget p
        rw [List.count_cons]
        simpa using this))
      refine ⟨⟨w.vars.eraseIdx i, reps, files⟩, ?_, ?_⟩
      · simp only [step, var, hget]
        rw [Res.ok_bind, e]; rfl
      · have := h.older hinv hold hsame
        rw [h.vars] at this ⊢
        exact this
    · cases hs
  | assign i j =>
    simp only [sstep] at hs
    cases hj : t.vars[j]? with
    | none => rw [hj] at hs; simp at hs
    | some x =>
      rw [hj] at hs
      simp only [Option.bind_some] at hs
      split at hs
      · next hi =>
        injection hs with hs
        injection hs with h1 h2
        subst h1 h2
        have hj' : w.vars[j]? = some x := by rw [h.vars]; exact hj
        have hi' : i < w.vars.length := by rw [h.vars]; exact hi
        have hget : w.vars[i]? = some w.vars[i] := List.getElem?_eq_getElem hi'
        have hp : 0 < w.vars.count x := List.count_pos_iff.2 (List.mem_of_getElem? hj')
        obtain ⟨reps1, e1, hinv1, hold1, -⟩ := inc_ok h.inv (id := x) (by omega)
        obtain ⟨reps2, e2, hinv2, hold2, -⟩ := inc_ok hinv1 (id := x) (by simp; omega)
        obtain ⟨reps3, files3, e3, hinv3, hold3, hs3⟩ := release_ok (id := w.vars[i]) (vars := x :: w.vars.set i x) (hinv2.vars (by
          intro p
          have := count_set hget x p
          simp only [List.count_cons, beq_iff_eq]
          omega))
        obtain ⟨reps4, files4, e4, hinv4, hold4, hs4⟩ := release_ok (id := x) (vars := w.vars.set i x) hinv3
        refine ⟨⟨w.vars.set i x, reps4, files4⟩, ?_, ?_⟩
        · simp only [step, var, hget, hj', Res.ok_bind]
          rw [e1, Res.ok_bind, e2, Res.ok_bind, e3, Res.ok_bind]
          dsimp only
          rw [e4]; rfl
        · have := h.older hinv4 (((hold1.trans hold2).trans hold3).trans hold4) (Eq.trans hs4 hs3)
          rw [h.vars] at this ⊢
          exact this
      · cases hs
  | buffer i =>
    simp only [sstep] at hs
    cases hi : t.vars[i]? with
    | none => rw [hi] at hs; simp at hs
    | some id =>
      rw [hi] at hs
      simp only [Option.map_some, Option.some.injEq, Prod.mk.injEq] at hs
      obtain ⟨rfl, rfl⟩ := hs
      have hi' : w.vars[i]? = some id := by rw [h.vars]; exact hi
      obtain ⟨r, hr, ha, hk⟩ := h.alive_var hi'
      have hlt : id < w.reps.length := (List.getElem?_eq_some_iff.1 hr).1
      refine ⟨⟨w.vars.set i w.reps.length, w.reps ++ [⟨1, .buf id [], true⟩], w.files⟩,
        by simp only [step, var, hi', Res.ok_bind], by simp [h.vars, h.len], by simp [h.len], h.files, ?_, ?_, h.many⟩
      · have := h.inv.push (vars' := w.vars.set i w.reps.length) (κ := .buf id []) (fs := []) (by
            intro p hp
            have := count_set hi' w.reps.length p
            rw [if_neg (by omega : ¬ w.reps.length = p)] at this
            simp only [holds]
            omega) (by
            have := count_set hi' w.reps.length w.reps.length
            rw [if_neg (by omega), if_pos rfl, vars_le h.inv (Nat.le_refl _)] at this
            omega) (by
            intro p hp
            have := count_set hi' w.reps.length p
            rw [if_neg (by omega), if_neg (by omega), vars_le h.inv (Nat.le_of_lt hp)] at this
            omega) (by intro m d hmd; injection hmd with h1; omega) (by simp) h.many (.inr ⟨by simp, rfl⟩)
        simpa using this
      · intro j x hx
        simp only at hx ⊢
        rcases Nat.lt_trichotomy j w.reps.length with hj | hj | hj
        · rw [List.getElem?_append_left hj] at hx
          rw [List.getElem?_append_left (by rw [← h.len]; exact hj)]
          exact h.kinds j x hx
        · subst hj
          simp at hx
          subst hx
          rw [h.len]
          simp [toStream]
        · rw [List.getElem?_eq_none (by simp; omega)] at hx; cases hx
  | unbuffer i =>
    simp only [sstep] at hs
    cases hi : t.vars[i]? with
    | none => rw [hi] at hs; simp at hs
    | some id =>
      rw [hi] at hs
      simp only [Option.bind_some] at hs
      have hi' : w.vars[i]? = some id := by rw [h.vars]; exact hi
      obtain ⟨r, hr, ha, hk⟩ := h.alive_var hi'
      rw [hk] at hs
      cases hkind : r.kind with
      | std => rw [hkind] at hs; simp [toStream] at hs
      | buf m d =>
        rw [hkind] at hs
        simp only [toStream, Option.some.injEq, Prod.mk.injEq] at hs
        obtain ⟨rfl, rfl⟩ := hs
        have hm : 0 < held w.reps m := by
          have := held_ge (p := m) hr
          have e : holds m r = 1 := by simp [holds, ha, hkind]
          omega
        obtain ⟨reps1, e1, hinv1, hold1, -⟩ := inc_ok h.inv (id := m) (by omega)
        obtain ⟨reps2, files2, e2, hinv2, hold2, hs2⟩ := release_ok (id := id) (vars := w.vars.set i m) (hinv1.vars (by
          intro p
          have := count_set hi' m p
          simp only [List.count_cons, beq_iff_eq]
          omega))
        refine ⟨⟨w.vars.set i m, reps2, files2⟩, ?_, ?_⟩
        · simp only [step, var, hi', Res.ok_bind, hr, ha, hkind, Bool.not_true, Bool.false_eq_true, if_false]
          rw [e1, Res.ok_bind, e2]; rfl
        · have := h.older hinv2 (hold1.trans hold2) hs2
          rw [h.vars] at this ⊢
          exact this
  | puts i s =>
    simp only [sstep] at hs
    cases hi : t.vars[i]? with
    | none => rw [hi] at hs; simp at hs
    | some id =>
      rw [hi] at hs
      simp only [Option.map_some, Option.some.injEq, Prod.mk.injEq] at hs
      obtain ⟨rfl, rfl⟩ := hs
      have hi' : w.vars[i]? = some id := by rw [h.vars]; exact hi
      obtain ⟨w', e, hr, -⟩ := write_rel (fails := fails) h hi' (cstr s)
      exact ⟨w', by simp only [step, var, hi', Res.ok_bind]; rw [e]; rfl, hr⟩
  | write i s =>
    simp only [sstep] at hs
    cases hi : t.vars[i]? with
    | none => rw [hi] at hs; simp at hs
    | some id =>
      rw [hi] at hs
      simp only [Option.map_some, Option.some.injEq, Prod.mk.injEq] at hs
      obtain ⟨rfl, rfl⟩ := hs
      have hi' : w.vars[i]? = some id := by rw [h.vars]; exact hi
      obtain ⟨w', e, hr, -⟩ := writeString_rel (fails := fails) h hi' s
      exact ⟨w', by simp only [step, var, hi', Res.ok_bind]; rw [e]; rfl, hr⟩

theorem run_rel {n : Nat} {fails : Nat → Bytes → Bytes → Option Nat} {w : World} {t t' : SWorld} {ops : List Op} {out : List Bytes}
    (h : Rel n w t) (hs : srun fails n t ops = some (t', out)) :
    ∃ w', run fails w ops = .ok (w', out) ∧ Rel n w' t' := by
  induction ops generalizing w t out with
  | nil =>
    injection hs with hs
    injection hs with h1 h2
    subst h1 h2
    exact ⟨w, rfl, h⟩
  | cons op ops ih =>
    rw [srun] at hs
    cases h1 : sstep fails n t op with
    | none => rw [h1] at hs; simp at hs
    | some r =>
      obtain ⟨t1, o1⟩ := r
      rw [h1] at hs
      simp only [Option.bind_some] at hs
      cases h2 : srun fails n t1 ops with
      | none => rw [h2] at hs; simp at hs
      | some q =>
        obtain ⟨t2, o2⟩ := q
        rw [h2] at hs
        simp only [Option.map_some, Option.some.injEq, Prod.mk.injEq] at hs
        obtain ⟨rfl, rfl⟩ := hs
        obtain ⟨w1, e1, r1⟩ := step_rel h h1
        obtain ⟨w2, e2, r2⟩ := ih r1 h2
        refine ⟨w2, ?_, r2⟩
        rw [run, e1, Res.ok_bind]
        dsimp only
        rw [e2]; rfl

theorem rel_start (n : Nat) : Rel n (start n) (sstart n) := by
  refine ⟨rfl, rfl, by simp [start, sstart], ⟨?_, ?_, ?_, ?_, ?_, ?_, ?_, ?_, ?_⟩, ?_, by simp [start]⟩
  · simp [start, held]
  · simp [start]
  · simp [start]
  · simp [start]
  · simp [start]
  · simp [start]
  · simp [start]
  · intro k hk
    exact ⟨⟨[], true⟩, by simp [start, hk], rfl⟩
  · intro k h1 h2
    simp [start] at h2
    omega
  · simp [start]

end Lolly.Ostream
