import Verif.System.Writable
import Verif.System.OstreamProps

set_option autoImplicit false

/-!
# C158: `is_writable` tells whether what is written arrives

Programs run in the world of OstreamSpec.lean, where streams are never destroyed; C58 relates it to the code.
-/

namespace Lolly.WritableProps

open Lolly.Ostream Lolly.Writable

/-! ## Specification -/

/-- The pieces that an operation hands to a stream: `x << "..."` one piece that ends at the first NUL, `x << s` every character
but NUL. -/
def pieces : Op → List Bytes
  | .puts _ s => [s.takeWhile (· ≠ 0)]
  | .write _ s => (s.filter (· ≠ 0)).map fun c => [c]
  | _ => []

/-- ... and the stream that the variable stands for at that time. -/
def sent (w : SWorld) (op : Op) : List (Nat × Bytes) :=
  match op with
  | .puts i _ => w.vars[i]?.elim [] fun id => (pieces op).map fun s => (id, s)
  | .write i _ => w.vars[i]?.elim [] fun id => (pieces op).map fun s => (id, s)
  | _ => []

/-- All pieces in the order in which they are handed over. -/
def log (fails : Nat → Bytes → Bytes → Option Nat) (n : Nat) (w : SWorld) : List Op → List (Nat × Bytes)
  | [] => []
  | op :: l => sent w op ++ (sstep fails n w op).elim [] fun r => log fails n r.1 l

/-- The stream is one on the file `k`. -/
def onFile (w : SWorld) (k id : Nat) : Bool :=
  match w.streams[id]? with
  | some (.file (some j) _) => j == k
  | _ => false

/-- The pieces for the file `k`, one after the other. -/
def gather (w : SWorld) (k : Nat) (l : List (Nat × Bytes)) : Bytes :=
  (l.filter fun e => onFile w k e.1).flatMap (·.2)

/-- No stream on the file `k` has ceased to be writable. -/
def AllWritable (w : SWorld) (k : Nat) : Prop :=
  ∀ (id : Nat) (v : Bool), w.streams[id]? = some (.file (some k) v) → v = true

/-! ## Lemmas -/

structure Ok (n : Nat) (t : SWorld) (l : List (Nat × Bytes)) : Prop where
  many : n ≤ t.files.length
  vars : ∀ id ∈ t.vars, id < t.streams.length
  below : ∀ (id b : Nat) (d : Bytes), t.streams[id]? = some (.buffer b d) → b < t.streams.length
  file : ∀ (id k : Nat) (v : Bool), t.streams[id]? = some (.file (some k) v) → k < t.files.length
  ids : ∀ e ∈ l, e.1 < t.streams.length
  text : ∀ k, AllWritable t k → ∀ c, t.files[k]? = some c → c = gather t k l

theorem gather_congr {t t' : SWorld} {k : Nat} {l : List (Nat × Bytes)} (h : ∀ e ∈ l, onFile t' k e.1 = onFile t k e.1) :
    gather t' k l = gather t k l := by
  unfold gather
  rw [List.filter_congr h]

theorem gather_snoc (t : SWorld) (k id : Nat) (s : Bytes) (l : List (Nat × Bytes)) :
    gather t k (l ++ [(id, s)]) = gather t k l ++ (if onFile t k id then s else []) := by
  unfold gather
  rw [List.filter_append, List.flatMap_append]
  congr 1
  by_cases h : onFile t k id = true
  · simp [h]
  · simp [h]

/-- A stream is changed only in its contents or in whether it is writable. -/
theorem Ok.change {n : Nat} {t : SWorld} {l l' : List (Nat × Bytes)} (h : Ok n t l) {id : Nat} {x y : Stream} {files : List Bytes}
    (hx : t.streams[id]? = some x) (hb : ∀ b d, y = .buffer b d → ∃ d', x = .buffer b d')
    (hf : ∀ k v, y = .file (some k) v → ∃ v', x = .file (some k) v' ∧ (v = true → v' = true))
    (hf' : ∀ k v, x = .file (some k) v → ∃ v', y = .file (some k) v')
    (hl : files.length = t.files.length) (hi : ∀ e ∈ l', e ∈ l ∨ e.1 = id)
    (ht : ∀ k, AllWritable t k → (∀ v, y = .file (some k) v → v = true) → ∀ c, files[k]? = some c → c = gather t k l') :
    Ok n { t with streams := t.streams.set id y, files := files } l' := by
  have hlt : id < t.streams.length := (List.getElem?_eq_some_iff.1 hx).1
  have hget : ∀ (j : Nat) (z : Stream), (t.streams.set id y)[j]? = some z → (j = id ∧ z = y) ∨ t.streams[j]? = some z := by
    intro j z hz
    rw [List.getElem?_set] at hz
    split at hz
    · next e => subst e; injection hz with hz; exact .inl ⟨rfl, hz.symm⟩
    · exact .inr hz
  have hon : ∀ k j, onFile { t with streams := t.streams.set id y, files := files } k j = onFile t k j := by
    intro k j
    unfold onFile
    simp only [List.getElem?_set]
    by_cases e : id = j
    · subst e
      rw [if_pos rfl, if_pos hlt, hx]
      cases y with
      | buffer b d => obtain ⟨d', rfl⟩ := hb b d rfl; rfl
      | file fk v =>
        cases fk with
        | some k' => obtain ⟨v', rfl, -⟩ := hf k' v rfl; rfl
        | none =>
          cases x with
          | buffer => rfl
          | file fk' v' =>
            cases fk' with
            | none => rfl
            | some k' => obtain ⟨_, e⟩ := hf' k' v' rfl; cases e
    · rw [if_neg e]
  refine ⟨by rw [hl]; exact h.many, by simpa using h.vars, fun j b d hj => ?_, fun j k v hj => ?_, fun e he => ?_, fun k ha c hc => ?_⟩
  · simp only [List.length_set]
    rcases hget j _ hj with ⟨rfl, e⟩ | hj
    · obtain ⟨d', e'⟩ := hb b d e.symm
      exact h.below j b d' (by rw [hx, e'])
    · exact h.below j b d hj
  · rw [hl]
    rcases hget j _ hj with ⟨rfl, e⟩ | hj
    · obtain ⟨v', e', -⟩ := hf k v e.symm
      exact h.file j k v' (by rw [hx, e'])
    · exact h.file j k v hj
  · simp only [List.length_set]
    rcases hi e he with he | he
    · exact h.ids e he
    · omega
  · rw [gather_congr (fun e _ => hon k e.1)]
    have hy : ∀ v, y = .file (some k) v → v = true := fun v hv => ha id v (by simp [hlt, hv])
    refine ht k (fun j v hj => ?_) hy c hc
    by_cases e : j = id
    · subst e
      rw [hx] at hj
      injection hj with hj
      obtain ⟨v', e⟩ := hf' k v hj
      obtain ⟨v'', e2, hv⟩ := hf k v' e
      have := hv (hy v' e)
      rw [hj] at e2
      injection e2 with _ e2
      rw [e2, this]
    · exact ha j v (by simp only [List.getElem?_set, if_neg (Ne.symm e)]; exact hj)

theorem Ok.more {n : Nat} {t : SWorld} {l : List (Nat × Bytes)} (h : Ok n t l) {id : Nat} (hid : id < t.streams.length) (s : Bytes)
    (hn : ∀ k, AllWritable t k → k < t.files.length → onFile t k id = true → s = []) : Ok n t (l ++ [(id, s)]) := by
  refine ⟨h.many, h.vars, h.below, h.file, fun e he => ?_, fun k ha c hc => ?_⟩
  · rcases List.mem_append.1 he with he | he
    · exact h.ids e he
    · rw [List.mem_singleton] at he; subst he; exact hid
  · rw [gather_snoc, ← h.text k ha c hc]
    by_cases ho : onFile t k id = true
    · rw [if_pos ho, hn k ha (List.getElem?_eq_some_iff.1 hc).1 ho, List.append_nil]
    · rw [if_neg ho, List.append_nil]

theorem emit_ok {n : Nat} {fails : Nat → Bytes → Bytes → Option Nat} {t : SWorld} {l : List (Nat × Bytes)} (h : Ok n t l) {id : Nat}
    (hid : id < t.streams.length) (s : Bytes) :
    Ok n (emit fails t id s) (l ++ [(id, s)]) ∧ (emit fails t id s).vars = t.vars ∧
      (emit fails t id s).streams.length = t.streams.length := by
  obtain ⟨x, hx⟩ : ∃ x, t.streams[id]? = some x := ⟨_, List.getElem?_eq_getElem hid⟩
  have hmem : ∀ e ∈ l ++ [(id, s)], e ∈ l ∨ e.1 = id := by
    intro e he
    rcases List.mem_append.1 he with he | he
    · exact .inl he
    · rw [List.mem_singleton] at he; subst he; exact .inr rfl
  cases x with
  | buffer b d =>
    unfold emit
    rw [hx]
    dsimp only
    refine ⟨h.change hx (fun b' d' e => ?_) (fun k v e => by cases e) (fun k v e => by cases e) rfl hmem (fun k ha _ c hc => ?_), rfl, by simp⟩
    · injection e with e1 e2; subst e1; exact ⟨d, rfl⟩
    · have ho : onFile t k id = false := by unfold onFile; rw [hx]
      rw [gather_snoc, ho, ← h.text k ha c hc]
      simp
  | file fk v =>
    cases fk with
    | none =>
      unfold emit
      rw [hx]
      exact ⟨h.more hid s (fun k _ _ ho => by unfold onFile at ho; rw [hx] at ho; cases ho), rfl, rfl⟩
    | some j =>
      cases v with
      | false =>
        unfold emit
        rw [hx]
        refine ⟨h.more hid s (fun k ha _ ho => ?_), rfl, rfl⟩
        have : j = k := by unfold onFile at ho; rw [hx] at ho; simpa using ho
        subst this
        exact absurd (ha id false hx) (by decide)
      | true =>
        have hj := h.file id j true hx
        have hc : t.files[j]? = some t.files[j] := List.getElem?_eq_getElem hj
        have hon : onFile t j id = true := by unfold onFile; rw [hx]; simp
        have hoff : ∀ k, k ≠ j → onFile t k id = false := by
          intro k hk; unfold onFile; rw [hx]; simp; exact fun e => hk e.symm
        unfold emit
        rw [hx]
        dsimp only
        rw [hc]
        dsimp only
        by_cases hs : s = []
        · rw [if_pos hs]
          exact ⟨h.more hid s (fun _ _ _ _ => hs), rfl, rfl⟩
        · rw [if_neg hs]
          cases fails j t.files[j] s with
          | none =>
            dsimp only
            have hself : t.streams.set id (.file (some j) true) = t.streams := OstreamProps.set_self hx
            have := h.change (l' := l ++ [(id, s)]) (files := t.files.set j (t.files[j] ++ s)) hx (y := .file (some j) true)
              (fun b d e => by cases e) (fun k v e => ⟨v, by rw [e], fun h => h⟩) (fun k v e => ⟨v, by rw [e]⟩) (by simp) hmem
              (fun k ha _ c hc' => ?_)
            · rw [hself] at this
              exact ⟨this, rfl, rfl⟩
            · rw [gather_snoc]
              by_cases e : k = j
              · subst e
                rw [hon, if_pos rfl, ← h.text k ha _ hc]
                rw [List.getElem?_set_self hj] at hc'
                injection hc' with hc'
                exact hc'.symm
              · rw [hoff k e, if_neg (by decide), List.append_nil]
                rw [List.getElem?_set_ne (Ne.symm e)] at hc'
                exact h.text k ha c hc'
          | some m =>
            dsimp only
            refine ⟨h.change (l' := l ++ [(id, s)]) hx (fun b d e => by cases e) (fun k v e => ?_)
              (fun k v e => ⟨false, by injection e with e _; rw [e]⟩) (by simp) hmem (fun k ha hy c hc' => ?_), rfl, by simp⟩
            · injection e with e1 e2
              exact ⟨true, by rw [e1], fun _ => rfl⟩
            · by_cases e : k = j
              · subst e
                exact absurd (hy false rfl) (by decide)
              · rw [gather_snoc, hoff k e, if_neg (by decide), List.append_nil]
                rw [List.getElem?_set_ne (Ne.symm e)] at hc'
                exact h.text k ha c hc'

theorem emits_ok {n : Nat} {fails : Nat → Bytes → Bytes → Option Nat} (s : Bytes) {t : SWorld} {l : List (Nat × Bytes)} (h : Ok n t l)
    {id : Nat} (hid : id < t.streams.length) :
    Ok n (s.foldl (fun w c => emit fails w id [c]) t) (l ++ (s.map fun c => [c]).map fun x => (id, x)) := by
  induction s generalizing t l with
  | nil => simpa using h
  | cons c s ih =>
    obtain ⟨h1, h2, h3⟩ := emit_ok (fails := fails) h hid [c]
    have := ih h1 (by rw [h3]; exact hid)
    simpa using this

/-- A new stream. -/
theorem Ok.push {n : Nat} {t : SWorld} {l : List (Nat × Bytes)} (h : Ok n t l) {vars : List Nat} {x : Stream} {files : List Bytes}
    (hv : ∀ id ∈ vars, id ∈ t.vars ∨ id = t.streams.length) (hb : ∀ b d, x = .buffer b d → b < t.streams.length)
    (hf : ∀ k v, x = .file (some k) v → k < (t.files ++ files).length) (he : ∀ c ∈ files, c = []) :
    Ok n ⟨vars, t.streams ++ [x], t.files ++ files⟩ l := by
  have hget : ∀ (j : Nat) (z : Stream), (t.streams ++ [x])[j]? = some z → (j = t.streams.length ∧ z = x) ∨ t.streams[j]? = some z := by
    intro j z hz
    by_cases hj : j < t.streams.length
    · rw [List.getElem?_append_left hj] at hz; exact .inr hz
    · rw [List.getElem?_append_right (by omega)] at hz
      have hjl : j - t.streams.length < 1 := by simpa using (List.getElem?_eq_some_iff.1 hz).1
      have : j = t.streams.length := by omega
      subst this
      simp at hz
      exact .inl ⟨rfl, hz.symm⟩
  have hm := h.many
  refine ⟨by rw [List.length_append]; omega, fun id hid => ?_, fun j b d hj => ?_, fun j k v hj => ?_, fun e hem => ?_, fun k ha c hc => ?_⟩
  · rw [List.length_append]
    rcases hv id hid with hid | rfl
    · have := h.vars id hid; omega
    · simp
  · rw [List.length_append]
    rcases hget j _ hj with ⟨-, e⟩ | hj
    · have := hb b d e.symm; omega
    · have := h.below j b d hj; omega
  · rcases hget j _ hj with ⟨-, e⟩ | hj
    · exact hf k v e.symm
    · have := h.file j k v hj
      rw [List.length_append]; omega
  · have := h.ids e hem
    rw [List.length_append]; omega
  · have hon : ∀ e ∈ l, onFile ⟨vars, t.streams ++ [x], t.files ++ files⟩ k e.1 = onFile t k e.1 := by
      intro e hem
      unfold onFile
      rw [List.getElem?_append_left (h.ids e hem)]
    rw [gather_congr hon]
    have hat : AllWritable t k := fun j v hj => ha j v (by
      rw [List.getElem?_append_left (List.getElem?_eq_some_iff.1 hj).1]; exact hj)
    by_cases hk : k < t.files.length
    · rw [List.getElem?_append_left hk] at hc
      exact h.text k hat c hc
    · have hc' := he c (List.mem_of_getElem? (by rw [List.getElem?_append_right (by omega)] at hc; exact hc))
      rw [hc']
      have : (l.filter fun e => onFile t k e.1) = [] := by
        rw [List.filter_eq_nil_iff]
        intro e _ ho
        unfold onFile at ho
        split at ho
        · next j v hj =>
          have := h.file _ _ _ hj
          have : j = k := by simpa using ho
          omega
        · cases ho
      unfold gather
      rw [this]; rfl

theorem Ok.sub {n : Nat} {t : SWorld} {l : List (Nat × Bytes)} (h : Ok n t l) {vars : List Nat}
    (hv : ∀ id ∈ vars, id < t.streams.length) : Ok n { t with vars := vars } l :=
  ⟨h.many, hv, h.below, h.file, h.ids, fun k ha c hc => h.text k ha c hc⟩

theorem step_ok {n : Nat} {fails : Nat → Bytes → Bytes → Option Nat} {t t' : SWorld} {l : List (Nat × Bytes)} {op : Op} {out : List Bytes}
    (h : Ok n t l) (hs : sstep fails n t op = some (t', out)) : Ok n t' (l ++ sent t op) := by
  have hv : ∀ {i id : Nat}, t.vars[i]? = some id → id < t.streams.length := fun hi => h.vars _ (List.mem_of_getElem? hi)
  have hset : ∀ {i x : Nat} (id : Nat), id ∈ t.vars.set i x → id ∈ t.vars ∨ id = x := fun id hid => List.mem_or_eq_of_mem_set hid
  cases op with
  | sink =>
    simp only [sstep, Option.some.injEq, Prod.mk.injEq] at hs
    obtain ⟨rfl, -⟩ := hs
    have := h.push (vars := t.vars ++ [t.streams.length]) (x := .file none true) (files := []) (by simp) (fun b d e => by cases e)
      (fun k v e => by cases e) (by simp)
    simpa [sent] using this
  | file k =>
    simp only [sstep] at hs
    split at hs
    · next hk =>
      simp only [Option.some.injEq, Prod.mk.injEq] at hs
      obtain ⟨rfl, -⟩ := hs
      have hm := h.many
      have := h.push (vars := t.vars ++ [t.streams.length]) (x := .file (some k) true) (files := []) (by simp) (fun b d e => by cases e)
        (fun k' v e => by injection e with e; injection e with e; rw [List.append_nil]; omega) (by simp)
      simpa [sent] using this
    · cases hs
  | create ok =>
    cases ok with
    | true =>
      simp only [sstep, Option.some.injEq, Prod.mk.injEq] at hs
      obtain ⟨rfl, -⟩ := hs
      have := h.push (vars := t.vars ++ [t.streams.length]) (x := .file (some t.files.length) true) (files := [[]]) (by simp)
        (fun b d e => by cases e)
        (fun k' v e => by injection e with e; injection e with e; simp; omega) (by simp)
      simpa [sent] using this
    | false =>
      simp only [sstep, Option.some.injEq, Prod.mk.injEq] at hs
      obtain ⟨rfl, -⟩ := hs
      have := h.push (vars := t.vars ++ [t.streams.length]) (x := .file none false) (files := []) (by simp) (fun b d e => by cases e)
        (fun k v e => by cases e) (by simp)
      simpa [sent] using this
  | copy i =>
    simp only [sstep, Option.map_eq_some_iff, Prod.mk.injEq] at hs
    obtain ⟨id, hi, rfl, -⟩ := hs
    have := h.sub (vars := t.vars ++ [id]) (by
      intro x hx
      rcases List.mem_append.1 hx with hx | hx
      · exact h.vars x hx
      · rw [List.mem_singleton] at hx; subst hx; exact hv hi)
    simpa [sent] using this
  | assign i j =>
    simp only [sstep, Option.bind_eq_some_iff] at hs
    obtain ⟨id, hj, hs⟩ := hs
    split at hs
    · simp only [Option.some.injEq, Prod.mk.injEq] at hs
      obtain ⟨rfl, -⟩ := hs
      have := h.sub (vars := t.vars.set i id) (by
        intro x hx
        rcases hset x hx with hx | rfl
        · exact h.vars x hx
        · exact hv hj)
      simpa [sent] using this
    · cases hs
  | drop i =>
    simp only [sstep] at hs
    split at hs
    · simp only [Option.some.injEq, Prod.mk.injEq] at hs
      obtain ⟨rfl, -⟩ := hs
      have := h.sub (vars := t.vars.eraseIdx i) (fun x hx => h.vars x (List.mem_of_mem_eraseIdx hx))
      simpa [sent] using this
    · cases hs
  | buffer i =>
    simp only [sstep, Option.map_eq_some_iff, Prod.mk.injEq] at hs
    obtain ⟨id, hi, rfl, -⟩ := hs
    have := h.push (vars := t.vars.set i t.streams.length) (x := .buffer id []) (files := []) hset
      (fun b d e => by injection e with e _; rw [← e]; exact hv hi) (fun k v e => by cases e) (by simp)
    simpa [sent] using this
  | unbuffer i =>
    simp only [sstep, Option.bind_eq_some_iff] at hs
    obtain ⟨id, hi, hs⟩ := hs
    split at hs
    · next b d hb =>
      simp only [Option.some.injEq, Prod.mk.injEq] at hs
      obtain ⟨rfl, -⟩ := hs
      have := h.sub (vars := t.vars.set i b) (by
        intro x hx
        rcases hset x hx with hx | rfl
        · exact h.vars x hx
        · exact h.below _ _ _ hb)
      simpa [sent] using this
    · cases hs
  | puts i s =>
    simp only [sstep, Option.map_eq_some_iff, Prod.mk.injEq] at hs
    obtain ⟨id, hi, rfl, -⟩ := hs
    have := (emit_ok (fails := fails) h (hv hi) (s.takeWhile (· ≠ 0))).1
    simpa [sent, pieces, hi] using this
  | write i s =>
    simp only [sstep, Option.map_eq_some_iff, Prod.mk.injEq] at hs
    obtain ⟨id, hi, rfl, -⟩ := hs
    have := emits_ok (fails := fails) (s.filter (· ≠ 0)) h (hv hi)
    simpa [sent, pieces, hi, emitString] using this

theorem run_ok {n : Nat} {fails : Nat → Bytes → Bytes → Option Nat} {ops : List Op} {t t' : SWorld} {l : List (Nat × Bytes)}
    {out : List Bytes} (h : Ok n t l) (hs : srun fails n t ops = some (t', out)) : Ok n t' (l ++ log fails n t ops) := by
  induction ops generalizing t l out with
  | nil =>
    simp only [srun, Option.some.injEq, Prod.mk.injEq] at hs
    obtain ⟨rfl, -⟩ := hs
    simpa [log] using h
  | cons op ops ih =>
    simp only [srun, Option.bind_eq_some_iff, Option.map_eq_some_iff] at hs
    obtain ⟨⟨t1, o1⟩, h1, ⟨t2, o2⟩, h2, e⟩ := hs
    simp only [Prod.mk.injEq] at e
    obtain ⟨rfl, -⟩ := e
    have := ih (step_ok h h1) h2
    rw [log, h1, Option.elim_some, ← List.append_assoc]
    exact this

theorem ok_start (n : Nat) : Ok n (sstart n) [] := by
  refine ⟨by simp [sstart], by simp [sstart], by simp [sstart], by simp [sstart], by simp, fun k _ c hc => ?_⟩
  have := List.mem_of_getElem? hc
  simp only [sstart] at this
  rw [(List.mem_replicate.1 this).2]
  rfl

/-! ## C158 -/

/-- If no stream on a file has ceased to be writable, then everything that was written to them has arrived in the file, in the order
in which it was written, and nothing else, whatever variables were copied, assigned, buffered and destroyed meanwhile, and
whatever printing to files may answer. Missing: streams without a file, see `C158_sink_violated`. -/
theorem C158_arrives_partial {n : Nat} {fails : Nat → Bytes → Bytes → Option Nat} {ops : List Op} {t : SWorld} {out : List Bytes}
    (h : srun fails n (sstart n) ops = some (t, out)) :
    ∃ w, run fails (start n) ops = .ok (w, out) ∧ ∀ (k : Nat) (f : File), w.files[k]? = some f → AllWritable t k →
      f.out = gather t k (log fails n (sstart n) ops) := by
  obtain ⟨w, e, -, hf, -⟩ := OstreamProps.C58_refines h
  refine ⟨w, e, fun k f hk ha => ?_⟩
  have ho := run_ok (ok_start n) h
  rw [List.nil_append] at ho
  refine ho.text k ha f.out ?_
  rw [← hf, List.getElem?_map, hk]
  rfl

/-- What `is_writable` answers: for a buffer yes, for a stream on a file whether it is writable still. -/
theorem C158_answer {n : Nat} {fails : Nat → Bytes → Bytes → Option Nat} {ops : List Op} {t : SWorld} {out : List Bytes}
    (h : srun fails n (sstart n) ops = some (t, out)) (i : Nat) (hi : i < t.vars.length) :
    ∃ w b id, run fails (start n) ops = .ok (w, out) ∧ isWritable w i = .ok b ∧ t.vars[i]? = some id ∧
      (b = false ↔ ∃ k, t.streams[id]? = some (.file k false)) := by
  obtain ⟨w, e, hr⟩ := run_rel (rel_start n) h
  have hid : t.vars[i]? = some t.vars[i] := List.getElem?_eq_getElem hi
  obtain ⟨r, h1, h2, h3⟩ := hr.alive_var (by rw [hr.vars]; exact hid)
  have hvar : var w i = .ok t.vars[i] := by rw [var, hr.vars, hid]
  cases hk : r.kind with
  | buf m d =>
    refine ⟨w, true, _, e, ?_, hid, ?_⟩
    · rw [isWritable, hvar, Res.ok_bind, isWritableRep, h1]
      simp [h2, hk]
    · rw [h3, hk]
      simp [toStream]
  | std f v own =>
    refine ⟨w, v, _, e, ?_, hid, ?_⟩
    · rw [isWritable, hvar, Res.ok_bind, isWritableRep, h1]
      simp [h2, hk]
    · rw [h3, hk]
      simp [toStream]

/-- A stream that has ceased to be writable stays so, and nothing that is written to it changes anything. -/
theorem C158_stays {n : Nat} {fails : Nat → Bytes → Bytes → Option Nat} {t t' : SWorld} {op : Op} {out : List Bytes} {id : Nat}
    {k : Option Nat} (hx : t.streams[id]? = some (.file k false)) :
    (sstep fails n t op = some (t', out) → t'.streams[id]? = some (.file k false)) ∧ ∀ s, emit fails t id s = t := by
  have hlt : id < t.streams.length := (List.getElem?_eq_some_iff.1 hx).1
  have happ : ∀ x : Stream, (t.streams ++ [x])[id]? = some (.file k false) := fun x => by
    rw [List.getElem?_append_left hlt]; exact hx
  have hemit : ∀ (t : SWorld) (j : Nat) (s : Bytes), t.streams[id]? = some (.file k false) →
      (emit fails t j s).streams[id]? = some (.file k false) := by
    intro t j s hx
    unfold emit
    split
    · next b d hj =>
      have : j ≠ id := by rintro rfl; rw [hx] at hj; cases hj
      simp only [List.getElem?_set, if_neg this]; exact hx
    · next k' hj =>
      have : j ≠ id := by rintro rfl; rw [hx] at hj; cases hj
      split
      · split
        · exact hx
        · split
          · exact hx
          · simp only [List.getElem?_set, if_neg this]; exact hx
      · exact hx
    · exact hx
  constructor
  · intro hs
    cases op with
    | sink => simp only [sstep, Option.some.injEq, Prod.mk.injEq] at hs; obtain ⟨rfl, -⟩ := hs; exact happ _
    | file k' =>
      simp only [sstep] at hs
      split at hs
      · simp only [Option.some.injEq, Prod.mk.injEq] at hs; obtain ⟨rfl, -⟩ := hs; exact happ _
      · cases hs
    | create ok =>
      cases ok <;> simp only [sstep, Option.some.injEq, Prod.mk.injEq] at hs <;> obtain ⟨rfl, -⟩ := hs <;> exact happ _
    | copy i => simp only [sstep, Option.map_eq_some_iff, Prod.mk.injEq] at hs; obtain ⟨_, _, rfl, -⟩ := hs; exact hx
    | assign i j =>
      simp only [sstep, Option.bind_eq_some_iff] at hs
      obtain ⟨_, _, hs⟩ := hs
      split at hs
      · simp only [Option.some.injEq, Prod.mk.injEq] at hs; obtain ⟨rfl, -⟩ := hs; exact hx
      · cases hs
    | drop i =>
      simp only [sstep] at hs
      split at hs
      · simp only [Option.some.injEq, Prod.mk.injEq] at hs; obtain ⟨rfl, -⟩ := hs; exact hx
      · cases hs
    | buffer i => simp only [sstep, Option.map_eq_some_iff, Prod.mk.injEq] at hs; obtain ⟨_, _, rfl, -⟩ := hs; exact happ _
    | unbuffer i =>
      simp only [sstep, Option.bind_eq_some_iff] at hs
      obtain ⟨_, _, hs⟩ := hs
      split at hs
      · simp only [Option.some.injEq, Prod.mk.injEq] at hs; obtain ⟨rfl, -⟩ := hs; exact hx
      · cases hs
    | puts i s =>
      simp only [sstep, Option.map_eq_some_iff, Prod.mk.injEq] at hs; obtain ⟨_, _, rfl, -⟩ := hs; exact hemit _ _ _ hx
    | write i s =>
      simp only [sstep, Option.map_eq_some_iff, Prod.mk.injEq] at hs
      obtain ⟨j, _, rfl, -⟩ := hs
      unfold emitString
      generalize s.filter (· ≠ 0) = s
      have : ∀ (s : Bytes) (t : SWorld), t.streams[id]? = some (.file k false) →
          (s.foldl (fun w c => emit fails w j [c]) t).streams[id]? = some (.file k false) := by
        intro s
        induction s with
        | nil => intro t hx; exact hx
        | cons c s ih => intro t hx; exact ih _ (hemit t j [c] hx)
      exact this s t hx
  · intro s
    unfold emit
    rw [hx]
    cases k <;> rfl

theorem emit_never {fails : Nat → Bytes → Bytes → Option Nat} {k : Nat} (hn : ∀ c s, fails k c s = none) {t : SWorld}
    (h : AllWritable t k) (j : Nat) (s : Bytes) : AllWritable (emit fails t j s) k := by
  have hset : ∀ (x : Stream), (∀ v, x = .file (some k) v → v = true) → ∀ (id : Nat) (v : Bool),
      (t.streams.set j x)[id]? = some (.file (some k) v) → v = true := by
    intro x hx id v hv
    rw [List.getElem?_set] at hv
    split at hv
    · split at hv
      · injection hv with hv; exact hx v hv
      · cases hv
    · exact h id v hv
  unfold emit
  split
  · exact hset _ (fun v e => by cases e)
  · split
    · split
      · exact h
      · split
        · exact h
        · next k' _ _ c _ _ _ m hm =>
          refine hset _ (fun v e => ?_)
          injection e with e _
          injection e with e
          subst e
          rw [hn] at hm
          cases hm
    · exact h
  · exact h

/-- As long as printing to a file does not fail, the streams on it stay writable. -/
theorem C158_reason {n : Nat} {fails : Nat → Bytes → Bytes → Option Nat} {ops : List Op} {t : SWorld} {out : List Bytes}
    (h : srun fails n (sstart n) ops = some (t, out)) (k : Nat) (hn : ∀ c s, fails k c s = none) : AllWritable t k := by
  have hstep : ∀ {t t' : SWorld} {op : Op} {out : List Bytes}, AllWritable t k → sstep fails n t op = some (t', out) →
      AllWritable t' k := by
    intro t t' op out h hs
    have happ : ∀ (vars : List Nat) (files : List Bytes) (x : Stream), (∀ v, x = .file (some k) v → v = true) →
        AllWritable ⟨vars, t.streams ++ [x], files⟩ k := by
      intro vars files x hx id v hv
      by_cases hj : id < t.streams.length
      · rw [List.getElem?_append_left hj] at hv; exact h id v hv
      · rw [List.getElem?_append_right (by omega)] at hv
        have := List.mem_of_getElem? hv
        rw [List.mem_singleton] at this
        exact hx v this.symm
    cases op with
    | sink =>
      simp only [sstep, Option.some.injEq, Prod.mk.injEq] at hs; obtain ⟨rfl, -⟩ := hs
      exact happ _ _ _ (fun v e => by cases e)
    | file k' =>
      simp only [sstep] at hs
      split at hs
      · simp only [Option.some.injEq, Prod.mk.injEq] at hs; obtain ⟨rfl, -⟩ := hs
        exact happ _ _ _ (fun v e => by injection e with _ e; exact e.symm)
      · cases hs
    | create ok =>
      cases ok <;> simp only [sstep, Option.some.injEq, Prod.mk.injEq] at hs <;> obtain ⟨rfl, -⟩ := hs
      · exact happ _ _ _ (fun v e => by cases e)
      · exact happ _ _ _ (fun v e => by injection e with _ e; exact e.symm)
    | copy i => simp only [sstep, Option.map_eq_some_iff, Prod.mk.injEq] at hs; obtain ⟨_, _, rfl, -⟩ := hs; exact h
    | assign i j =>
      simp only [sstep, Option.bind_eq_some_iff] at hs
      obtain ⟨_, _, hs⟩ := hs
      split at hs
      · simp only [Option.some.injEq, Prod.mk.injEq] at hs; obtain ⟨rfl, -⟩ := hs; exact h
      · cases hs
    | drop i =>
      simp only [sstep] at hs
      split at hs
      · simp only [Option.some.injEq, Prod.mk.injEq] at hs; obtain ⟨rfl, -⟩ := hs; exact h
      · cases hs
    | buffer i =>
      simp only [sstep, Option.map_eq_some_iff, Prod.mk.injEq] at hs; obtain ⟨_, _, rfl, -⟩ := hs
      exact happ _ _ _ (fun v e => by cases e)
    | unbuffer i =>
      simp only [sstep, Option.bind_eq_some_iff] at hs
      obtain ⟨_, _, hs⟩ := hs
      split at hs
      · simp only [Option.some.injEq, Prod.mk.injEq] at hs; obtain ⟨rfl, -⟩ := hs; exact h
      · cases hs
    | puts i s =>
      simp only [sstep, Option.map_eq_some_iff, Prod.mk.injEq] at hs; obtain ⟨_, _, rfl, -⟩ := hs; exact emit_never hn h _ _
    | write i s =>
      simp only [sstep, Option.map_eq_some_iff, Prod.mk.injEq] at hs
      obtain ⟨j, _, rfl, -⟩ := hs
      unfold emitString
      have : ∀ (s : Bytes) (t : SWorld), AllWritable t k → AllWritable (s.foldl (fun w c => emit fails w j [c]) t) k := by
        intro s
        induction s with
        | nil => intro t h; exact h
        | cons c s ih => intro t h; exact ih _ (emit_never hn h j [c])
      exact this _ t h
  suffices ∀ (ops : List Op) (t t' : SWorld) (out : List Bytes), AllWritable t k → srun fails n t ops = some (t', out) →
      AllWritable t' k from this ops _ _ _ (by intro id v hv; simp [sstart] at hv) h
  intro ops
  induction ops with
  | nil =>
    intro t t' out h hs
    simp only [srun, Option.some.injEq, Prod.mk.injEq] at hs
    obtain ⟨rfl, -⟩ := hs
    exact h
  | cons op ops ih =>
    intro t t' out h hs
    simp only [srun, Option.bind_eq_some_iff, Option.map_eq_some_iff] at hs
    obtain ⟨⟨t1, o1⟩, h1, ⟨t2, o2⟩, h2, e⟩ := hs
    simp only [Prod.mk.injEq] at e
    obtain ⟨rfl, -⟩ := e
    exact ih _ _ _ (hstep h h1) h2

/-- C158 fails for a stream made without a file: it says that it is writable, but what is written to it arrives nowhere. -/
theorem C158_sink_violated (fails : Nat → Bytes → Bytes → Option Nat) (n : Nat) (s : Bytes) :
    ∃ w, run fails (start n) [.sink, .write 0 s] = .ok (w, []) ∧ isWritable w 0 = .ok true ∧ w.files = (start n).files := by
  have hw : ∀ (s : Bytes) (w : World), w.reps[0]? = some ⟨1, .std none true true, true⟩ → writeString fails w 0 s = .ok w := by
    intro s
    induction s with
    | nil => intro w _; rfl
    | cons c s ih =>
      intro w hr
      have : writeRep fails w 0 (cstr [c]) = .ok w := by rw [writeRep, hr]; rfl
      rw [writeString, this, Res.ok_bind, ih w hr]
  refine ⟨⟨[0], [⟨1, .std none true true, true⟩], (start n).files⟩, ?_, rfl, rfl⟩
  simp only [run, step, start, List.nil_append, List.length_nil, Res.ok_bind, var, List.getElem?_cons_zero]
  rw [hw s _ rfl]
  rfl

/-- Two handles on one file; the third write fails after a character. -/
def sample : List Op := [.file 0, .copy 0, .puts 0 (b!"ab"), .write 1 (b!"cd"), .create true, .puts 2 (b!"x"), .puts 1 (b!"ef")]

def failing : Nat → Bytes → Bytes → Option Nat := fun _ c _ => if c.length < 4 then none else some 1

example : srun failing 1 (sstart 1) sample =
    some (⟨[0, 0, 1], [.file (some 0) false, .file (some 1) true], [b!"abcde", b!"x"]⟩, []) := by decide
example : log failing 1 (sstart 1) sample =
    [(0, b!"ab"), (0, b!"c"), (0, b!"d"), (1, b!"x"), (0, b!"ef")] := by decide
example : AllWritable ⟨[0, 0, 1], [.file (some 0) false, .file (some 1) true], [b!"abcde", b!"x"]⟩ 1 := by
  intro id v h
  match id, h with
  | 0, h => simp at h
  | 1, h => simp at h; exact h
  | _ + 2, h => simp at h

end Lolly.WritableProps
