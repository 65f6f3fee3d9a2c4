import Verif.System.Http
import Verif.System.FileUrls
import Verif.Kernel.BlackboxProps
import Verif.Containers.HashMapProps
import Verif.Strings.CharsProps

/-!
# C101: answers to requests; C102: requests; C103: downloads
-/

set_option autoImplicit false

namespace Lolly.HttpProps

open Lolly.Url Lolly.Files Lolly.Blackbox Lolly.Http Lolly.HashMapProps Lolly.CharsProps Lolly.An

/-! ## Specification -/

variable {D : Type}

/-- What `open_box<T> (http_response_ref (r, op)->data)` gives, with the identifiers of types of the program. -/
def value (order : List Ty) (t : Ty) (r : HTree D) (op : Int) : Res (Val D t) := do
  let n ← responseRef r op
  openBox (initIds order 0) t n.data

/-- The child for a label has that label and contains `v`. -/
def Answers (order : List Ty) (t : Ty) (r : HTree D) (op : Int) (v : Val D t) : Prop :=
  value order t r op = .ok v ∧ ∃ n, responseRef r op = .ok n ∧ n.op = op

/-- Names without regard to case. -/
def lower (s : Bytes) : Bytes := s.map locase

/-- The same for ASCII only, as in the library `cpr`: the letters from `A` on. -/
def anyCase (s : Bytes) : Bytes :=
  s.map fun c => match (b!"ABCDEFGHIJKLMNOPQRSTUVWXYZ").idxOf? c with
    | some i => (b!"abcdefghijklmnopqrstuvwxyz").getD i 0
    | none => c

/-- The label that one reaches by going down to the children with the given numbers. -/
def labelAt : HTree D → List Nat → Option Int
  | .node op _ _, [] => some op
  | .node _ _ kids, i :: p => (kids[i]?).bind (labelAt · p)

/-- No NUL among the characters. -/
def NoNul (s : Bytes) : Prop := ∀ c ∈ s, c ≠ 0

instance (s : Bytes) : Decidable (NoNul s) := by unfold NoNul; infer_instance

/-! ## Lemmas -/

theorem cstr_noNul (s : Bytes) : NoNul (cstr s) := by
  intro c hc
  induction s with
  | nil => cases hc
  | cons d s ih =>
    rw [cstr, List.takeWhile_cons] at hc
    split at hc
    · rcases List.mem_cons.1 hc with rfl | hc
      · next h => simpa using h
      · exact ih hc
    · cases hc

theorem cstr_of_noNul {s : Bytes} (h : NoNul s) : cstr s = s := by
  induction s with
  | nil => rfl
  | cons c s ih =>
    rw [cstr, List.takeWhile_cons, if_pos (by simpa using h c (by simp))]
    exact congrArg (c :: ·) (ih fun d hd => h d (by simp [hd]))

theorem headerLoop_spec (hash : Bytes → BitVec 32) (l : List (Bytes × Bytes)) :
    ∀ {h : HashMap Bytes Bytes} {s : Spec Bytes Bytes}, Built hash h s → s.dflt = [] →
    ∃ g t, headerLoop hash l h = .ok g ∧ Built hash g t ∧ t.dflt = [] ∧
      ∀ key, t.val key = ((l.reverse.find? fun p => lower (cstr p.1) = key).map fun p => cstr p.2).or (s.val key) := by
  induction l with
  | nil => exact fun b hd => ⟨_, _, rfl, b, hd, fun _ => rfl⟩
  | cons p l ih =>
    intro h s b hd
    obtain ⟨k, v⟩ := p
    obtain ⟨h', e⟩ := (C01_progress b b b (lower (cstr k)) (cstr v) 1 (Nat.le_refl 1)).1
    obtain ⟨g, t, h1, h2, h3, h4⟩ := ih (.set _ _ b e) hd
    refine ⟨g, t, ?_, h2, h3, fun key => ?_⟩
    · rw [headerLoop, locaseAll, mapBytes_eq, Res.ok_bind]
      show (h.set hash (lower (cstr k)) (cstr v) >>= _) = _
      rw [e]; exact h1
    · rw [h4, List.reverse_cons, List.find?_append]
      cases hf : l.reverse.find? fun p => lower (cstr p.1) = key with
      | some q => rfl
      | none =>
        by_cases hk : lower (cstr k) = key
        · simp [Spec.upd, hk]
        · simp [Spec.upd, Ne.symm hk, eq_comm]

theorem copy_node (o : Int) (d : Box (Val D)) (kids : List (HTree D)) :
    copy (.node o d kids) = .node o none (kids.map copy) := by
  rw [copy]
  congr 1
  simp

/-! ## C101 -/

/-- C101: for every answer of the server, the result has exactly the children for the five labels; they have these labels
and contain the status, the text up to the first NUL, the url that was asked for, the time and the header. A name is looked
up in the header in lower case; the last line with that name counts, and other names give the empty string.
Missing: texts with NULs, see `C101_nul_violated`. -/
theorem C101_response_partial (order : List Ty) (hash : Bytes → BitVec 32) (zero : D) (r : Response D) (url : Bytes) :
    ∃ tree, responseToTree hash zero r url = .ok tree ∧ tree.op = ROOT ∧
      Answers order .long tree STATUS_CODE r.status ∧
      Answers order .string tree TEXT (cstr r.text) ∧
      Answers order .string tree URL url ∧
      Answers order .double tree ELAPSED r.elapsed ∧
      (∃ h : HashMap Bytes Bytes, Answers order .map tree HEADER h ∧ ∀ key, h.get hash key =
        .ok (((r.header.reverse.find? fun p => lower (cstr p.1) = key).map fun p => cstr p.2).getD [])) ∧
      ∀ op, (∃ n, responseRef tree op = .ok n) ↔ 1 ≤ op ∧ op ≤ 5 := by
  obtain ⟨h, t, h1, h2, h3, h4⟩ := headerLoop_spec hash r.header (.new ([] : Bytes) 1 1 (by decide)) rfl
  have op1 : ∀ (l : Int) (ty : Ty) (v : Val D ty), openBox (initIds order 0) ty (blackboxTree l ty v).data = .ok v :=
    fun l ty v => BlackboxProps.C56_round_trip order ty v
  refine ⟨.node ROOT none [blackboxTree STATUS_CODE .long r.status, blackboxTree TEXT .string (cstr r.text),
    blackboxTree URL .string url, blackboxTree ELAPSED .double r.elapsed, blackboxTree HEADER .map h], ?_, rfl,
    ⟨op1 _ .long _, _, rfl, rfl⟩, ⟨op1 _ .string _, _, rfl, rfl⟩, ⟨op1 _ .string _, _, rfl, rfl⟩,
    ⟨op1 _ .double _, _, rfl, rfl⟩, ⟨h, ⟨op1 _ .map _, _, rfl, rfl⟩, fun key => ?_⟩, fun op => ?_⟩
  · show (headerLoop hash r.header (HashMap.new []) >>= _) = _
    rw [h1]; rfl
  · rw [C01_get h2, Spec.read, h4, h3]
    show Res.ok (Option.getD (Option.or _ none) []) = _
    rw [Option.or_none]
  · constructor
    · rintro ⟨n, hn⟩
      rw [responseRef, rdI] at hn
      split at hn
      · rw [rd_eq_ok] at hn
        have := List.getElem?_eq_some_iff.1 hn
        obtain ⟨hlt, _⟩ := this
        simp only [HTree.kids, List.length_cons, List.length_nil] at hlt
        omega
      · cases hn
    · intro ho
      rw [responseRef, rdI, if_pos (by omega)]
      exact ⟨_, rd_ok (by simp only [HTree.kids, List.length_cons, List.length_nil]; omega)⟩

/-- C101 for headers: if no two names agree without regard to case, and there are no NULs, every line of the header can be
read, in lower case. -/
theorem C101_header (order : List Ty) (hash : Bytes → BitVec 32) (zero : D) (r : Response D) (url : Bytes)
    (hd : (r.header.map fun p => lower p.1).Nodup) (hn : ∀ p ∈ r.header, NoNul p.1 ∧ NoNul p.2) :
    ∃ tree, ∃ h : HashMap Bytes Bytes, responseToTree hash zero r url = .ok tree ∧ value order .map tree HEADER = .ok h ∧
      (∀ p ∈ r.header, h.get hash (lower p.1) = .ok p.2) ∧
      ∀ key, (∀ p ∈ r.header, lower p.1 ≠ key) → h.get hash key = .ok [] := by
  obtain ⟨tree, e, -, -, -, -, -, ⟨h, ⟨hv, -⟩, hg⟩, -⟩ := C101_response_partial order hash zero r url
  refine ⟨tree, h, e, hv, fun p hp => ?_, fun key hk => ?_⟩
  · rw [hg]
    have hf : r.header.reverse.find? (fun q => lower (cstr q.1) = lower p.1) = some p := by
      have hall : ∀ q ∈ r.header, lower (cstr q.1) = lower p.1 → q = p := by
        intro q hq he
        rw [cstr_of_noNul (hn q hq).1] at he
        obtain ⟨i, hi, ei⟩ := List.getElem_of_mem hq
        obtain ⟨j, hj, ej⟩ := List.getElem_of_mem hp
        have : i = j := by
          have h1 : (r.header.map fun p => lower p.1)[i]? = (r.header.map fun p => lower p.1)[j]? := by
            rw [List.getElem?_map, List.getElem?_map, List.getElem?_eq_getElem hi, List.getElem?_eq_getElem hj, ei, ej]
            simp [he]
          exact (List.getElem?_inj (by simpa using hi) hd).1 h1
        subst this
        rw [← ei, ← ej]
      cases hq : r.header.reverse.find? (fun q => lower (cstr q.1) = lower p.1) with
      | none =>
        have := List.find?_eq_none.1 hq p (by simpa using hp)
        rw [cstr_of_noNul (hn p hp).1] at this
        simp at this
      | some q =>
        have h1 := List.find?_some hq
        have h2 : q ∈ r.header := by simpa using List.mem_of_find?_eq_some hq
        rw [hall q h2 (by simpa using h1)]
    rw [hf]
    simp [cstr_of_noNul (hn p hp).2]
  · rw [hg]
    have : r.header.reverse.find? (fun q => lower (cstr q.1) = key) = none := by
      rw [List.find?_eq_none]
      intro q hq
      have hq' : q ∈ r.header := by simpa using hq
      rw [cstr_of_noNul (hn q hq').1]
      simpa using hk q hq'
    rw [this]; rfl

/-- A header as a server sends it meets the hypotheses. -/
example : ∃ r : Response Nat, (r.header.map fun p => lower p.1).Nodup ∧ (∀ p ∈ r.header, NoNul p.1 ∧ NoNul p.2) ∧
    lower (b!"Content-Type") = (b!"content-type") ∧ ((b!"Content-Type"), (b!"text/html")) ∈ r.header :=
  ⟨⟨200, [], 0, [((b!"Content-Type"), (b!"text/html")), ((b!"Server"), (b!"x"))]⟩, by decide, by decide, by decide,
    by decide⟩

/-- Setting the child for a label changes that child only. -/
theorem C101_set (r t : HTree D) (op : Int) (h1 : 1 ≤ op) (h2 : op ≤ r.kids.length) :
    ∃ r', responseSet r op t = .ok r' ∧ responseRef r' op = .ok t ∧ r'.op = r.op ∧ r'.data = r.data ∧
      ∀ op', op' ≠ op → responseRef r' op' = responseRef r op' := by
  obtain ⟨o, d, kids⟩ := r
  simp only [HTree.kids] at h2
  refine ⟨.node o d (kids.set (op - 1).toNat t), ?_, ?_, rfl, rfl, fun op' hne => ?_⟩
  · rw [responseSet, if_pos (by omega), wr_ok (by simp only [HTree.kids]; omega)]; rfl
  · rw [responseRef, rdI, if_pos (by omega), rd_eq_ok]
    simp only [HTree.kids]
    rw [List.getElem?_set_self (by omega)]
  · rw [responseRef, responseRef, rdI, rdI]
    by_cases h : 0 ≤ op' - 1
    · rw [if_pos h, if_pos h, rd, rd]
      simp only [HTree.kids]
      rw [List.getElem?_set_ne (by omega)]
    · rw [if_neg h, if_neg h]

/-- There is no child for other labels: reading or setting it is undefined. -/
theorem C101_range (r t : HTree D) (op : Int) (h : op < 1 ∨ r.kids.length < op) :
    responseSet r op t = .ub ∧ responseRef r op = .ub := by
  constructor
  · rw [responseSet]
    by_cases h0 : 0 ≤ op - 1
    · rw [if_pos h0, wr, if_neg (by omega)]; rfl
    · rw [if_neg h0]
  · rw [responseRef, rdI]
    by_cases h0 : 0 ≤ op - 1
    · rw [if_pos h0, rd_ub (by omega)]
    · rw [if_neg h0]

/-- Before a request the status is 404, the strings are empty and so is the header.
Missing: the label of the time, see `C101_init_violated`. -/
theorem C101_init_partial (order : List Ty) (hash : Bytes → BitVec 32) (zero : D) :
    Answers order .long (responseInit zero) STATUS_CODE (404 : Int) ∧
    Answers order .string (responseInit zero) TEXT ([] : Bytes) ∧
    Answers order .string (responseInit zero) URL ([] : Bytes) ∧
    value order .double (responseInit zero) ELAPSED = .ok zero ∧
    (∃ h : HashMap Bytes Bytes, Answers order .map (responseInit zero) HEADER h ∧ ∀ key, h.get hash key = .ok []) ∧
    (responseInit zero).kids.length = 5 := by
  have val : ∀ (t : Ty) (v : Val D t) (l : Int), openBox (initIds order 0) t (blackboxTree l t v).data = .ok v :=
    fun t v l => BlackboxProps.C56_round_trip order t v
  refine ⟨⟨val .long (404 : Int) _, _, rfl, rfl⟩, ⟨val .string ([] : Bytes) _, _, rfl, rfl⟩,
    ⟨val .string ([] : Bytes) _, _, rfl, rfl⟩, val .double zero _,
    ⟨_, ⟨val .map (HashMap.new ([] : Bytes) : HashMap Bytes Bytes) _, _, rfl, rfl⟩, fun key => ?_⟩, rfl⟩
  exact C01_get (.new ([] : Bytes) 1 1 (by decide)) key

/-- The labels are different from each other. -/
theorem C101_labels : [STATUS_CODE, TEXT, URL, ELAPSED, HEADER, PARAMETERS, PAYLOAD, MULTIPART, TUPLE, ROOT].Nodup := by
  decide

example : ∃ r : HTree Nat, (1 : Int) ≤ ELAPSED ∧ ELAPSED ≤ r.kids.length := ⟨responseInit 0, by decide, by decide⟩

/-- C101 fails for a text with a NUL: the rest of it is lost. -/
theorem C101_nul_violated (order : List Ty) (hash : Bytes → BitVec 32) :
    ∃ r : Response Nat, r.text = [97, 0, 98] ∧ ∃ tree, responseToTree hash 0 r [] = .ok tree ∧
      value order .string tree TEXT = .ok [97] := by
  refine ⟨⟨200, [97, 0, 98], 0, []⟩, rfl, ?_⟩
  obtain ⟨tree, e, -, -, ⟨ht, -⟩, -⟩ := C101_response_partial order hash 0 (⟨200, [97, 0, 98], 0, []⟩ : Response Nat) []
  exact ⟨tree, e, ht⟩

/-- C101 fails for the answer before a request: the child for the time has the label of the status. -/
theorem C101_init_violated : ∃ n, responseRef (responseInit (0 : Nat)) ELAPSED = .ok n ∧ n.op = STATUS_CODE ∧
    n.op ≠ ELAPSED :=
  ⟨_, rfl, rfl, by decide⟩

/-- C101 fails for copies: in the copy of every answer, no value can be opened; the program stops with an error. -/
theorem C101_copy_violated (order : List Ty) (ho : ∀ t, t ∈ order) (hash : Bytes → BitVec 32) (zero : D) (r : Response D)
    (url : Bytes) : ∃ tree, responseToTree hash zero r url = .ok tree ∧
      ∀ t op, 1 ≤ op → op ≤ 5 → value order t (copy tree) op = .thrown := by
  obtain ⟨tree, e, -, -, -, -, -, -, hr⟩ := C101_response_partial order hash zero r url
  refine ⟨tree, e, fun t op h1 h2 => ?_⟩
  obtain ⟨n, hn⟩ := (hr op).2 ⟨h1, h2⟩
  obtain ⟨o, d, kids⟩ := tree
  have hc : responseRef (copy (.node o d kids)) op = .ok (copy n) := by
    rw [responseRef, rdI, if_pos (by omega), rd_eq_ok] at *
    rw [copy_node]
    simp only [HTree.kids] at *
    rw [List.getElem?_map, hn]; rfl
  rw [value, hc, Res.ok_bind]
  obtain ⟨o', d', kids'⟩ := n
  rw [copy]
  show (if (0 : Int) = idOf _ t then _ else _) = _
  have := (BlackboxProps.C56_ids (ho t) (ho t)).2
  rw [if_neg (by omega)]

example : ∀ t : Ty, t ∈ [Ty.long, .string, .double, .map] := by intro t; cases t <;> decide

/-- C101 fails for equality: answers with any two states are equal. -/
theorem C101_equal_violated (hash : Bytes → BitVec 32) (zero : D) (r1 r2 : Response D) (u1 u2 : Bytes) :
    ∃ t1 t2, responseToTree hash zero r1 u1 = .ok t1 ∧ responseToTree hash zero r2 u2 = .ok t2 ∧ eqTree t1 t2 = true := by
  obtain ⟨h1, _, e1, _⟩ := headerLoop_spec hash r1.header (.new ([] : Bytes) 1 1 (by decide)) rfl
  obtain ⟨h2, _, e2, _⟩ := headerLoop_spec hash r2.header (.new ([] : Bytes) 1 1 (by decide)) rfl
  refine ⟨.node ROOT none [blackboxTree STATUS_CODE .long r1.status, blackboxTree TEXT .string (cstr r1.text),
    blackboxTree URL .string u1, blackboxTree ELAPSED .double r1.elapsed, blackboxTree HEADER .map h1],
    .node ROOT none [blackboxTree STATUS_CODE .long r2.status, blackboxTree TEXT .string (cstr r2.text),
    blackboxTree URL .string u2, blackboxTree ELAPSED .double r2.elapsed, blackboxTree HEADER .map h2], ?_, ?_, ?_⟩
  · show (headerLoop hash r1.header (HashMap.new []) >>= _) = _
    rw [e1]; rfl
  · show (headerLoop hash r2.header (HashMap.new []) >>= _) = _
    rw [e2]; rfl
  · simp [eqTree, blackboxTree]

theorem label_kid (a : HTree D) (i : Nat) (p : List Nat) : labelAt a (i :: p) = (a.kids[i]?).bind (labelAt · p) := by
  cases a; rfl

theorem kid_lt {a : HTree D} {i : Nat} (h : i < a.kids.length) : sizeOf a.kids[i] < sizeOf a := by
  obtain ⟨o, d, ks⟩ := a
  have := List.sizeOf_lt_of_mem (List.getElem_mem h)
  simp only [HTree.node.sizeOf_spec, HTree.kids] at *
  omega

/-- C101 fails for equality in no other way: trees are equal exactly if they have the same labels in the same places. -/
theorem C101_equal (a b : HTree D) : eqTree a b = true ↔ ∀ p, labelAt a p = labelAt b p := by
  have step : ∀ a b : HTree D, eqTree a b = true ↔ a.op = b.op ∧ a.kids.length = b.kids.length ∧
      ∀ (i : Nat) x y, a.kids[i]? = some x → b.kids[i]? = some y → eqTree x y = true := by
    rintro ⟨o1, d1, k1⟩ ⟨o2, d2, k2⟩
    rw [eqTree]
    simp only [Bool.and_eq_true, decide_eq_true_iff, HTree.op, HTree.kids, List.all_eq_true, and_assoc]
    refine and_congr_right fun _ => and_congr_right fun hl => ⟨fun h i x y hx hy => ?_, fun h z hz => ?_⟩
    · obtain ⟨hi, rfl⟩ := List.getElem?_eq_some_iff.1 hx
      obtain ⟨hi', rfl⟩ := List.getElem?_eq_some_iff.1 hy
      have hlen : i < (k1.attach.zip k2).length := by simp; omega
      have := h _ (List.getElem_mem hlen)
      rw [List.getElem_zip] at this
      simpa using this
    · obtain ⟨i, hi, rfl⟩ := List.mem_iff_getElem.1 hz
      have h1 : i < k1.length := by simp at hi; omega
      rw [List.getElem_zip, List.getElem_attach]
      exact h i _ _ (List.getElem?_eq_getElem h1) (List.getElem?_eq_getElem (by omega))
  generalize hn : sizeOf a = n
  induction n using Nat.strongRecOn generalizing a b with
  | ind n ih =>
    subst hn
    rw [step]
    constructor
    · rintro ⟨h1, h2, h3⟩ p
      cases p with
      | nil => obtain ⟨_, _, _⟩ := a; obtain ⟨_, _, _⟩ := b; simpa [labelAt, HTree.op] using h1
      | cons i p =>
        rw [label_kid, label_kid]
        by_cases hi : i < a.kids.length
        · have hi' : i < b.kids.length := by omega
          have := (ih _ (kid_lt hi) a.kids[i] b.kids[i] rfl).1
            (h3 i _ _ (List.getElem?_eq_getElem hi) (List.getElem?_eq_getElem hi')) p
          rw [List.getElem?_eq_getElem hi, List.getElem?_eq_getElem hi']
          exact this
        · rw [List.getElem?_eq_none (by omega), List.getElem?_eq_none (by omega)]
    · intro h
      have hs : ∀ x : HTree D, labelAt x [] ≠ none := by rintro ⟨_, _, _⟩; simp [labelAt]
      have hk : ∀ i, i < a.kids.length ↔ i < b.kids.length := by
        intro i
        have := h [i]
        rw [label_kid, label_kid] at this
        by_cases ha : i < a.kids.length <;> by_cases hb : i < b.kids.length
        · exact ⟨fun _ => hb, fun _ => ha⟩
        · rw [List.getElem?_eq_getElem ha, List.getElem?_eq_none (by omega)] at this
          exact absurd this (hs _)
        · rw [List.getElem?_eq_getElem hb, List.getElem?_eq_none (by omega)] at this
          exact absurd this.symm (hs _)
        · omega
      have hl : a.kids.length = b.kids.length := by
        have h1 := hk a.kids.length
        have h2 := hk b.kids.length
        omega
      refine ⟨?_, hl, fun i x y hx hy => ?_⟩
      · have := h []
        obtain ⟨_, _, _⟩ := a; obtain ⟨_, _, _⟩ := b
        simpa [labelAt, HTree.op] using this
      · obtain ⟨hi, rfl⟩ := List.getElem?_eq_some_iff.1 hx
        obtain ⟨hi', rfl⟩ := List.getElem?_eq_some_iff.1 hy
        refine (ih _ (kid_lt hi) _ _ rfl).2 fun p => ?_
        have := h (i :: p)
        rw [label_kid, label_kid, hx, hy] at this
        exact this

example : labelAt (responseInit 0) [3] = some STATUS_CODE ∧ labelAt (responseInit 0) [5] = none := ⟨rfl, rfl⟩

/-! ## C102 -/

theorem anyCase_eq (s : Bytes) : anyCase s = s.map toLower := by
  unfold anyCase
  congr 1
  funext c
  have : ∀ n : Fin 256, (match (b!"ABCDEFGHIJKLMNOPQRSTUVWXYZ").idxOf? (UInt8.ofNat n) with
      | some i => (b!"abcdefghijklmnopqrstuvwxyz").getD i 0
      | none => UInt8.ofNat n) = toLower (UInt8.ofNat n) := by decide +kernel
  have h := this ⟨c.toNat, c.toNat_lt⟩
  simpa using h

theorem cprSet_new (k v : Bytes) (l : List (Bytes × Bytes)) (h : ∀ p ∈ l, p.1.map toLower ≠ k.map toLower) :
    cprSet k v l = l ++ [(k, v)] := by
  induction l with
  | nil => rfl
  | cons p l ih =>
    obtain ⟨k', v'⟩ := p
    rw [cprSet, if_neg (h (k', v') (by simp)), ih fun q hq => h q (by simp [hq])]
    rfl

theorem cprLoop_spec {hash : Bytes → BitVec 32} {h : HashMap Bytes Bytes} {s : Spec Bytes Bytes} (b : Built hash h s)
    (ks : List Bytes) : ∀ acc : List (Bytes × Bytes), (∀ k ∈ ks, NoNul k ∧ NoNul (s.read k)) →
    (ks.map fun k => k.map toLower).Nodup → (∀ k ∈ ks, ∀ p ∈ acc, p.1.map toLower ≠ k.map toLower) →
    cprLoop hash h ks acc = .ok (acc ++ ks.map fun k => (k, s.read k)) := by
  induction ks with
  | nil => intro acc _ _ _; simp [cprLoop]
  | cons k ks ih =>
    intro acc hn hd ha
    rw [List.map_cons, List.nodup_cons] at hd
    rw [cprLoop, C01_get b, Res.ok_bind, cstr_of_noNul (hn k (by simp)).1, cstr_of_noNul (hn k (by simp)).2,
      cprSet_new _ _ _ (ha k (by simp)), ih _ (fun k' hk' => hn k' (by simp [hk'])) hd.2 ?_]
    · simp
    · intro k' hk' p hp
      rcases List.mem_append.1 hp with hp | hp
      · exact ha k' (by simp [hk']) p hp
      · simp only [List.mem_singleton] at hp
        subst hp
        intro e
        exact hd.1 (e ▸ List.mem_map.2 ⟨k', hk', rfl⟩)

/-- C102 but for names that agree without regard to case and for NULs: the request is for the url, its header has exactly
the lines of the map, each once, and the user agent is the value of "User-Agent". -/
theorem C102_request_partial {hash : Bytes → BitVec 32} {h : HashMap Bytes Bytes} {s : Spec Bytes Bytes}
    (b : Built hash h s) (fuel : Nat) (hf : h.N < fuel) (u : Url) (hu : NoNul (asString u))
    (hn : ∀ k v, s.val k = some v → NoNul k ∧ NoNul v) (ha : NoNul s.dflt)
    (hd : ∀ k k', (s.val k).isSome → (s.val k').isSome → anyCase k = anyCase k' → k = k') :
    ∃ q, request hash fuel u h = .ok q ∧ q.url = asString u ∧ (∀ k v, (k, v) ∈ q.header ↔ s.val k = some v) ∧
      (q.header.map Prod.fst).Nodup ∧ q.agent = s.read (b!"User-Agent") := by
  simp only [anyCase_eq] at hd
  obtain ⟨it, es, h1, h2, h3, h4⟩ := C02_iterator b fuel hf
  have hr : ∀ k v, s.val k = some v → s.read k = v := fun k v e => by rw [Spec.read, e]; rfl
  have hloop := cprLoop_spec b (es.map (·.key)) [] (by
      intro k hk
      obtain ⟨v, hv⟩ := Option.isSome_iff_exists.1 ((h4 k).1 hk)
      rw [hr k v hv]
      exact hn k v hv) (by
      have : ∀ l : List Bytes, l.Nodup → (∀ k ∈ l, (s.val k).isSome) → (l.map fun k => k.map toLower).Nodup := by
        intro l
        induction l with
        | nil => intro _ _; exact List.nodup_nil
        | cons k l ih =>
          intro hnd hs
          rw [List.nodup_cons] at hnd
          rw [List.map_cons, List.nodup_cons]
          refine ⟨fun hm => ?_, ih hnd.2 fun k' hk' => hs k' (by simp [hk'])⟩
          obtain ⟨k', hk', e⟩ := List.mem_map.1 hm
          have := hd k' k (hs k' (by simp [hk'])) (hs k (by simp)) e
          exact hnd.1 (this ▸ hk')
      exact this _ h3 fun k hk => (h4 k).1 hk) (by intro k _ p hp; cases hp)
  have hag : NoNul (s.read (b!"User-Agent")) := by
    rw [Spec.read]
    cases hv : s.val (b!"User-Agent") with
    | none => exact ha
    | some v => exact (hn _ v hv).2
  refine ⟨⟨asString u, (es.map (·.key)).map fun k => (k, s.read k), s.read (b!"User-Agent")⟩, ?_, rfl, fun k v => ?_, ?_, rfl⟩
  · rw [request, asCprHeader, h1, Res.ok_bind, h2, Res.ok_bind, hloop, Res.ok_bind, userAgent, C01_get b, Res.ok_bind,
      cstr_of_noNul hu, cstr_of_noNul hag]
    rfl
  · constructor
    · intro hm
      obtain ⟨k', hk', e⟩ := List.mem_map.1 hm
      obtain ⟨v', hv⟩ := Option.isSome_iff_exists.1 ((h4 k').1 hk')
      injection e with e1 e2
      subst e1
      rw [hv, ← e2, hr _ _ hv]
    · intro hv
      exact List.mem_map.2 ⟨k, (h4 k).2 (by show (s.val k).isSome = true; rw [hv]; rfl), by rw [hr k v hv]⟩
  · rw [List.map_map]
    show ((es.map (·.key)).map fun k => k).Nodup
    rwa [List.map_id']

/-- A map that meets the hypotheses. -/
example : ∃ (h : HashMap Bytes Bytes) (s : Spec Bytes Bytes), Built (fun _ => 0) h s ∧ h.N < 2 ∧
    s.val (b!"User-Agent") = some (b!"x") ∧ NoNul s.dflt ∧ (∀ k v, s.val k = some v → NoNul k ∧ NoNul v) ∧
    ∀ k k', (s.val k).isSome → (s.val k').isSome → anyCase k = anyCase k' → k = k' := by
  refine ⟨_, _, .set (b!"User-Agent") (b!"x") (.new [] 1 1 (by decide)) rfl, by decide, rfl, by decide, ?_, ?_⟩
  · intro k v hv
    simp only [Spec.upd] at hv
    split at hv
    · next e => subst e; cases hv; decide
    · cases hv
  · intro k k' h1 h2 _
    simp only [Spec.upd] at h1 h2
    split at h1
    · next e =>
      split at h2
      · next e' => rw [e, e']
      · cases h2
    · cases h1

/-- What remains of a string that is handed to C: the characters before the first NUL. -/
def cut (s : Bytes) : Bytes := s.takeWhile (· ≠ 0)

/-- `header` is made from the keys `ks` with the values `val`: names that agree without regard to case (and after the first NUL)
make one line, with the spelling of one of them and the value of one of them. -/
structure Lines (val : Bytes → Bytes) (ks : List Bytes) (header : List (Bytes × Bytes)) : Prop where
  once : (header.map fun p => anyCase p.1).Nodup
  all : ∀ k ∈ ks, ∃ p ∈ header, anyCase p.1 = anyCase (cut k)
  name : ∀ p ∈ header, ∃ k ∈ ks, cut k = p.1
  value : ∀ p ∈ header, ∃ k ∈ ks, anyCase (cut k) = anyCase p.1 ∧ cut (val k) = p.2

theorem cprSet_names (k v : Bytes) (l : List (Bytes × Bytes)) :
    ((cprSet k v l).map fun p => anyCase p.1) =
      if anyCase k ∈ l.map (fun p => anyCase p.1) then l.map (fun p => anyCase p.1) else l.map (fun p => anyCase p.1) ++ [anyCase k] := by
  induction l with
  | nil => simp [cprSet]
  | cons p l ih =>
    obtain ⟨k', v'⟩ := p
    rw [cprSet]
    by_cases hc : k'.map toLower = k.map toLower
    · rw [if_pos hc, if_pos (by rw [List.map_cons]; simp [anyCase_eq, hc])]
      rfl
    · rw [if_neg hc, List.map_cons, ih]
      have hne : anyCase k ≠ anyCase k' := by rw [anyCase_eq, anyCase_eq]; exact fun e => hc e.symm
      by_cases hm : anyCase k ∈ l.map (fun p => anyCase p.1)
      · rw [if_pos hm, if_pos (by rw [List.map_cons]; exact List.mem_cons_of_mem _ hm)]
        rfl
      · rw [if_neg hm, if_neg (by rw [List.map_cons, List.mem_cons]; exact fun h => h.elim hne hm)]
        rfl

theorem cprSet_mem (k v : Bytes) (l : List (Bytes × Bytes)) (p : Bytes × Bytes) (h : p ∈ cprSet k v l) :
    p ∈ l ∨ p = (k, v) ∨ p.2 = v ∧ anyCase p.1 = anyCase k ∧ ∃ v', (p.1, v') ∈ l := by
  induction l with
  | nil => rw [cprSet] at h; exact .inr (.inl (by simpa using h))
  | cons q l ih =>
    obtain ⟨k', v'⟩ := q
    rw [cprSet] at h
    by_cases hc : k'.map toLower = k.map toLower
    · rw [if_pos hc] at h
      rcases List.mem_cons.1 h with rfl | h
      · exact .inr (.inr ⟨rfl, by rw [anyCase_eq, anyCase_eq]; exact hc, v', by simp⟩)
      · exact .inl (List.mem_cons_of_mem _ h)
    · rw [if_neg hc] at h
      rcases List.mem_cons.1 h with rfl | h
      · exact .inl (by simp)
      · rcases ih h with h | h | ⟨h1, h2, v2, h3⟩
        · exact .inl (List.mem_cons_of_mem _ h)
        · exact .inr (.inl h)
        · exact .inr (.inr ⟨h1, h2, v2, List.mem_cons_of_mem _ h3⟩)

theorem Lines.step {val : Bytes → Bytes} {ks : List Bytes} {header : List (Bytes × Bytes)} (h : Lines val ks header) (k : Bytes) :
    Lines val (ks ++ [k]) (cprSet (cstr k) (cstr (val k)) header) := by
  have hn := cprSet_names (cstr k) (cstr (val k)) header
  refine ⟨?_, fun k' hk' => ?_, fun p hp => ?_, fun p hp => ?_⟩
  · rw [hn]
    split
    · exact h.once
    · next hm =>
      refine List.nodup_append.2 ⟨h.once, by simp, ?_⟩
      intro a ha b hb e
      rw [List.mem_singleton] at hb
      exact hm (hb ▸ e ▸ ha)
  · have : anyCase (cut k') ∈ (cprSet (cstr k) (cstr (val k)) header).map (fun p => anyCase p.1) := by
      rw [hn]
      rcases List.mem_append.1 hk' with hk' | hk'
      · obtain ⟨p, hp, e⟩ := h.all k' hk'
        have : anyCase (cut k') ∈ header.map (fun p => anyCase p.1) := List.mem_map.2 ⟨p, hp, e⟩
        split
        · exact this
        · exact List.mem_append_left _ this
      · rw [List.mem_singleton] at hk'
        subst hk'
        split
        · assumption
        · exact List.mem_append_right _ (List.mem_singleton.2 rfl)
    obtain ⟨p, hp, e⟩ := List.mem_map.1 this
    exact ⟨p, hp, e⟩
  · rcases cprSet_mem _ _ _ _ hp with hp | rfl | ⟨-, -, v', hp⟩
    · obtain ⟨k', hk', e⟩ := h.name p hp
      exact ⟨k', List.mem_append_left _ hk', e⟩
    · exact ⟨k, by simp, rfl⟩
    · obtain ⟨k', hk', e⟩ := h.name _ hp
      exact ⟨k', List.mem_append_left _ hk', e⟩
  · rcases cprSet_mem _ _ _ _ hp with hp | rfl | ⟨h1, h2, -⟩
    · obtain ⟨k', hk', e⟩ := h.value p hp
      exact ⟨k', List.mem_append_left _ hk', e⟩
    · exact ⟨k, by simp, rfl, rfl⟩
    · exact ⟨k, by simp, h2.symm, h1.symm⟩

theorem cprLoop_lines {hash : Bytes → BitVec 32} {h : HashMap Bytes Bytes} {s : Spec Bytes Bytes} (b : Built hash h s)
    (ks : List Bytes) : ∀ (done : List Bytes) (acc : List (Bytes × Bytes)), Lines s.read done acc →
    ∃ l, cprLoop hash h ks acc = .ok l ∧ Lines s.read (done ++ ks) l := by
  induction ks with
  | nil => intro done acc hl; exact ⟨acc, rfl, by rwa [List.append_nil]⟩
  | cons k ks ih =>
    intro done acc hl
    obtain ⟨l, e, hl'⟩ := ih (done ++ [k]) _ (hl.step k)
    refine ⟨l, ?_, by rwa [List.append_assoc] at hl'⟩
    rw [cprLoop, C01_get b, Res.ok_bind, e]

/-- What is sent for any map: for the names of the map that agree without regard to case one line is sent, with the spelling of
one of them and the value of one of them; nothing else is sent. Strings end at their first NUL. -/
theorem C102_request_any {hash : Bytes → BitVec 32} {h : HashMap Bytes Bytes} {s : Spec Bytes Bytes}
    (b : Built hash h s) (fuel : Nat) (hf : h.N < fuel) (u : Url) :
    ∃ q ks, request hash fuel u h = .ok q ∧ q.url = cut (asString u) ∧ q.agent = cut (s.read (b!"User-Agent")) ∧
      (∀ k, k ∈ ks ↔ (s.val k).isSome) ∧ Lines s.read ks q.header := by
  obtain ⟨it, es, h1, h2, h3, h4⟩ := C02_iterator b fuel hf
  obtain ⟨l, e, hl⟩ := cprLoop_lines b (es.map (·.key)) [] [] ⟨List.nodup_nil, by simp, by simp, by simp⟩
  refine ⟨⟨cstr (asString u), l, cstr (s.read (b!"User-Agent"))⟩, es.map (·.key), ?_, rfl, rfl, h4, (List.nil_append (es.map (·.key)) ▸ hl : Lines _ (es.map (·.key)) l)⟩
  rw [request, asCprHeader, h1, Res.ok_bind, h2, Res.ok_bind, e, Res.ok_bind, userAgent, C01_get b, Res.ok_bind]

theorem same_of_once {A B : Type} (f : A → B) {l : List A} (h : (l.map f).Nodup) {a b : A} (ha : a ∈ l) (hb : b ∈ l)
    (e : f a = f b) : a = b := by
  induction l with
  | nil => cases ha
  | cons x l ih =>
    rw [List.map_cons, List.nodup_cons] at h
    rcases List.mem_cons.1 ha with ea | ma <;> rcases List.mem_cons.1 hb with eb | mb
    · exact ea.trans eb.symm
    · exact absurd (List.mem_map.2 ⟨b, mb, ea ▸ e.symm⟩) h.1
    · exact absurd (List.mem_map.2 ⟨a, ma, eb ▸ e⟩) h.1
    · exact ih h.2 ma mb

/-- C102 fails for names that agree without regard to case: whatever else is in the map, at most one of them is sent. -/
theorem C102_case_violated {hash : Bytes → BitVec 32} {h : HashMap Bytes Bytes} {s : Spec Bytes Bytes}
    (b : Built hash h s) (fuel : Nat) (hf : h.N < fuel) (u : Url) (k1 k2 v1 v2 : Bytes)
    (hc : anyCase (cut k1) = anyCase (cut k2)) (hd : cut k1 ≠ cut k2) :
    ∃ q, request hash fuel u h = .ok q ∧ ¬ ((cut k1, v1) ∈ q.header ∧ (cut k2, v2) ∈ q.header) := by
  obtain ⟨q, ks, e, -, -, -, hl⟩ := C102_request_any b fuel hf u
  refine ⟨q, e, fun ⟨h1, h2⟩ => hd ?_⟩
  have := same_of_once (fun p : Bytes × Bytes => anyCase p.1) hl.once h1 h2 hc
  injection this

/-- A map with such names. -/
example : ∃ (h : HashMap Bytes Bytes) (s : Spec Bytes Bytes) (q : Request), Built (fun _ => 0) h s ∧
    s.val (b!"A") = some (b!"1") ∧ s.val (b!"a") = some (b!"2") ∧ request (fun _ => 0) 5 (.atom []) h = .ok q ∧
    q.header.length = 1 :=
  ⟨_, _, ⟨[], [((b!"a"), (b!"1"))], []⟩, .set (b!"a") (b!"2") (.set (b!"A") (b!"1") (.new [] 1 1 (by decide)) rfl) rfl, rfl,
    rfl, rfl, rfl⟩

/-! ## C103 -/

/-- C103 but for urls of the protocol `file` and failures: if the target can be opened and is not a device, it has exactly
the characters that arrived afterwards; if not, nothing changes. No other file changes. The result is that of `http_get` with
the same session. -/
theorem C103_download_partial {hash : Bytes → BitVec 32} {fuel : Nat} {zero : D} {session : Request → Response D} {opens : Bool}
    {body : Request → Bytes} {fs fs' : FS} {source to : Url} {headers : HashMap Bytes Bytes} {r : HTree D}
    (h : download hash fuel zero session opens body fs source to headers = .ok (fs', r))
    (hf : isRootedS (b!"file") to = false) :
    ∃ q k, request hash fuel source headers = .ok q ∧ placeOf fs to = .ok k ∧
      httpGet hash fuel zero session source headers = .ok r ∧ (∀ j, j ≠ k → fs'.node j = fs.node j) ∧ fs'.place = fs.place ∧
      (opens = true → fs.node k ≠ .special → fs'.node k = .regular (body q)) ∧
      (opens = false ∨ fs.node k = .special → fs'.node k = fs.node k) := by
  rw [download] at h
  obtain ⟨q, hq, h⟩ := Res.bind_eq_ok.1 h
  obtain ⟨r', hr, h⟩ := Res.bind_eq_ok.1 h
  injection h with h
  injection h with h1 h2
  subst h2
  refine ⟨q, fs.place (cname (asString to)), hq, ?_, by rw [httpGet, hq]; exact hr, ?_⟩
  · rw [placeOf, asLocalPath, hf]; rfl
  · subst h1
    cases opens with
    | false => exact ⟨fun _ _ => rfl, rfl, (fun e => by cases e), fun _ => rfl⟩
    | true =>
      simp only [if_true]
      cases hk : fs.node (fs.place (cname (asString to))) with
      | special => exact ⟨fun _ _ => rfl, rfl, fun _ e => absurd rfl e, fun _ => hk⟩
      | absent =>
        refine ⟨fun j hj => by simp [FS.put, hj], rfl, fun _ _ => by simp [FS.put], ?_⟩
        rintro (e | e) <;> cases e
      | regular c =>
        refine ⟨fun j hj => by simp [FS.put, hj], rfl, fun _ _ => by simp [FS.put], ?_⟩
        rintro (e | e) <;> cases e

/-- A call that meets the hypotheses. -/
example : ∃ fs' r, download (fun _ => 0) 5 (0 : Nat) (fun _ => ⟨200, [], 0, []⟩) true (fun _ => (b!"abc"))
    ⟨fun _ => 0, fun _ => .absent⟩ (.atom (b!"u")) (.atom (b!"f")) (HashMap.new []) = .ok (fs', r) ∧
    fs'.node 0 = .regular (b!"abc") := ⟨_, _, rfl, rfl⟩

/-- C103 fails if the transfer fails: whatever the file contained is lost, although nothing arrived. -/
theorem C103_failure_violated (c : Bytes) : ∃ (fs fs' : FS) (to : Url) (session : Request → Response Nat)
    (r : HTree Nat), fs.node (fs.place (b!"f")) = .regular c ∧ (∀ q, (session q).status = 0) ∧
    download (fun _ => 0) 5 0 session true (fun _ => []) fs (.atom (b!"u")) to (HashMap.new []) = .ok (fs', r) ∧
    fs'.node (fs.place (b!"f")) = .regular [] :=
  ⟨⟨fun _ => 0, fun _ => .regular c⟩, _, .atom (b!"f"), fun _ => ⟨0, [], 0, []⟩, _, rfl, fun _ => rfl, rfl, rfl⟩

/-- C103 fails for targets of the protocol `file`, whatever the names in them: nothing is written to the file that the url
names, but to one whose name is the whole url, if its directory exists. -/
theorem C103_file_violated {hash : Bytes → BitVec 32} {fuel : Nat} {zero : D} {session : Request → Response D}
    {body : Request → Bytes} {fs fs' : FS} {source : Url} {headers : HashMap Bytes Bytes} {r : HTree D} (l : List Url)
    (hl : ∀ y ∈ l, Elem y) (hne : l ≠ []) (hp : l.head? ≠ some parent)
    (h : download hash fuel zero session true body fs source (R (b!"file") l) headers = .ok (fs', r))
    (k j : Nat) (hk : fs.place (cname (asString (R (b!"default") l))) = k)
    (hj : fs.place (cname ((b!"file://") ++ asString (R (b!"default") l))) = j) (hd : k ≠ j) (ha : fs.node j = .absent) :
    placeOf fs (R (b!"file") l) = .ok k ∧ fs'.node k = fs.node k ∧
      ∃ q, request hash fuel source headers = .ok q ∧ fs'.node j = .regular (body q) := by
  obtain ⟨-, h2, h3⟩ := file_path hl hne hp
  refine ⟨by rw [placeOf, h2, Res.ok_bind, hk], ?_⟩
  rw [download] at h
  obtain ⟨q, hq, h⟩ := Res.bind_eq_ok.1 h
  obtain ⟨r', hr, h⟩ := Res.bind_eq_ok.1 h
  rw [h3, hj, ha] at h
  cases h
  refine ⟨?_, q, hq, ?_⟩
  · simp [FS.put, hd]
  · simp [FS.put]

/-- A download to `file:///f`. -/
example : ∃ (fs fs' : FS) (r : HTree Nat), fs.place (b!"/f") = 1 ∧ fs.place (b!"file:///f") = 2 ∧ fs.node 2 = .absent ∧
    download (fun _ => 0) 5 0 (fun _ => ⟨200, [], 0, []⟩) true (fun _ => (b!"abc")) fs (.atom (b!"u"))
      (R (b!"file") [.atom (b!"f")]) (HashMap.new []) = .ok (fs', r) :=
  ⟨⟨fun p => if p = (b!"/f") then 1 else if p = (b!"file:///f") then 2 else 0, fun _ => .absent⟩, _, _, rfl, rfl, rfl, rfl⟩

end Lolly.HttpProps
