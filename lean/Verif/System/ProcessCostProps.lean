import Verif.System.ProcessCost
import Verif.System.ProcessProps

set_option autoImplicit false

/-!
# C156: the cost of collecting the output of a command

`C156_same`: the counted loop does what the loop of C62 does. `C156_partial`: with `j` reads at most `j` characters are copied per
character of the output. `C156_violated`: if no read gives more than `s` characters (4096 in the code), then for `n` characters of
output at least `n * n / (2 * s)` are copied, so there is no constant bound per character; `C156_unbounded_violated` says so.
-/

namespace Lolly.ProcessCostProps

open Process ProcessCost

theorem resize_same (junk : Nat → UInt8) (t : Ts) (k m : Nat) :
    (resizeC junk t k m).bind (fun p => .ok p.1) = t.resize junk m := by
  unfold resizeC Ts.resize
  split
  · rfl
  · split
    · dsimp only
      split
      · unfold memcpyC
        cases memcpy ((List.range (max (2 * t.n) m)).map junk) 0 (t.a.take t.n) <;> rfl
      · rfl
    · rfl

theorem append_same (junk : Nat → UInt8) (t : Ts) (k : Nat) (b : Bytes) :
    (appendC junk t k b).bind (fun p => .ok p.1) = t.append junk b := by
  unfold appendC Ts.append
  rw [← resize_same junk t k]
  cases resizeC junk t k (b.length + t.n) with
  | ok p =>
    obtain ⟨t1, k1⟩ := p
    show Res.bind _ _ = Res.bind (memcpy t1.a t1.n b) _
    simp only [Res.ok_bind, memcpyC]
    cases memcpy t1.a t1.n b <;> rfl
  | _ => rfl

theorem loop_same (junk : Nat → UInt8) (read : Nat → Option Bytes) (closes : Bool) : ∀ (f i : Nat) (t : Ts) (k : Nat),
    (readLoopC junk read closes f i t k).bind (fun p => .ok p.1) = readLoopT junk read closes f i t
  | 0, _, _, _ => rfl
  | f + 1, i, t, k => by
    unfold readLoopC readLoopT
    cases read i with
    | none => rfl
    | some b =>
      dsimp only
      split
      · rfl
      · rw [← append_same junk t k]
        cases appendC junk t k b with
        | ok p => exact loop_same junk read closes f (i + 1) p.1 p.2
        | _ => rfl

/-- Appending something copies everything. -/
theorem append_cost {junk : Nat → UInt8} {t t' : Ts} {k k' : Nat} {b : Bytes} (hb : b.length ≠ 0) (h : appendC junk t k b = .ok (t', k')) :
    t'.n = t.n + b.length ∧ k' = k + t'.n := by
  obtain ⟨⟨t1, k1⟩, h1, h⟩ := Res.bind_eq_ok.1 h
  obtain ⟨⟨a, k2⟩, h2, h⟩ := Res.bind_eq_ok.1 h
  cases h
  obtain ⟨a', _, h2⟩ := Res.bind_eq_ok.1 h2
  cases h2
  unfold resizeC at h1
  rw [if_neg (by omega)] at h1
  split at h1
  · dsimp only at h1
    split at h1
    · next hl =>
      obtain ⟨⟨a2, k3⟩, h3, h1⟩ := Res.bind_eq_ok.1 h1
      cases h1
      obtain ⟨a3, _, h3⟩ := Res.bind_eq_ok.1 h3
      cases h3
      refine ⟨rfl, ?_⟩
      simp only [List.length_take]
      omega
    · cases h1
  · cases h1

theorem square_step (n c s : Nat) (h : c ≤ s) : (n + c) * (n + c) ≤ n * n + 2 * s * (n + c) := by
  have h1 : (n + c) * (n + c) = n * n + c * (n + (n + c)) := by
    rw [Nat.add_mul, Nat.mul_add n n c, Nat.mul_add c n (n + c), Nat.mul_comm n c, Nat.add_assoc]
  have h2 : c * (n + (n + c)) ≤ s * (2 * (n + c)) := Nat.mul_le_mul h (by omega)
  have h3 : s * (2 * (n + c)) = 2 * s * (n + c) := by rw [← Nat.mul_assoc, Nat.mul_comm s 2]
  omega

theorem loop_cost {junk : Nat → UInt8} {read : Nat → Option Bytes} {closes : Bool} {s : Nat} (hs : ∀ i b, read i = some b → b.length ≤ s) :
    ∀ (f i : Nat) {t t' : Ts} {k k' c : Nat} {e : Bool}, readLoopC junk read closes f i t k = .ok ((t', c, e), k') →
      t.n ≤ t'.n ∧ t'.n * t'.n + 2 * s * k ≤ t.n * t.n + 2 * s * k'
  | 0, _, _, _, _, _, _, _, h => by cases h
  | f + 1, i, t, t', k, k', c, e, h => by
    unfold readLoopC at h
    cases hr : read i with
    | none =>
      simp only [hr] at h
      cases h
      exact ⟨Nat.le_refl _, Nat.le_refl _⟩
    | some b =>
      simp only [hr] at h
      split at h
      · cases h
        exact ⟨Nat.le_refl _, Nat.le_refl _⟩
      · next hb =>
        obtain ⟨⟨t1, k1⟩, h1, h⟩ := Res.bind_eq_ok.1 h
        obtain ⟨n1, rfl⟩ := append_cost hb h1
        obtain ⟨q1, q2⟩ := loop_cost hs f (i + 1) h
        dsimp only at q1 q2
        have q4 := square_step t.n b.length s (hs i b hr)
        rw [← n1] at q4
        rw [Nat.mul_add (2 * s)] at q2
        exact ⟨by omega, by omega⟩

theorem loop_upper {junk : Nat → UInt8} {read : Nat → Option Bytes} {closes : Bool} :
    ∀ (f i : Nat) {t t' : Ts} {k k' c : Nat} {e : Bool}, readLoopC junk read closes f i t k = .ok ((t', c, e), k') →
      ∃ j, (∀ x, x < j → ∃ b, read (i + x) = some b ∧ b ≠ []) ∧ (read (i + j) = none ∨ read (i + j) = some []) ∧ k + t'.n ≤ k' + t.n ∧
        t.n ≤ t'.n ∧ k' ≤ k + j * t'.n
  | 0, _, _, _, _, _, _, _, h => by cases h
  | f + 1, i, t, t', k, k', c, e, h => by
    unfold readLoopC at h
    cases hr : read i with
    | none =>
      simp only [hr] at h
      cases h
      exact ⟨0, fun x hx => absurd hx (by omega), .inl hr, Nat.le_refl _, Nat.le_refl _, by omega⟩
    | some b =>
      simp only [hr] at h
      split at h
      · next hb =>
        cases h
        exact ⟨0, fun x hx => absurd hx (by omega), .inr (by rw [Nat.add_zero, hr, List.length_eq_zero_iff.1 hb]), Nat.le_refl _, Nat.le_refl _, by omega⟩
      · next hb =>
        obtain ⟨⟨t1, k1⟩, h1, h⟩ := Res.bind_eq_ok.1 h
        obtain ⟨n1, rfl⟩ := append_cost hb h1
        obtain ⟨j, q1, q2, q3, q5, q4⟩ := loop_upper f (i + 1) h
        dsimp only at q3 q4 q5
        refine ⟨j + 1, fun x hx => ?_, by rw [show i + (j + 1) = i + 1 + j by omega]; exact q2, by omega, by omega, ?_⟩
        · cases x with
          | zero => exact ⟨b, hr, fun e => hb (by rw [e]; rfl)⟩
          | succ x => rw [show i + (x + 1) = i + 1 + x by omega]; exact q1 x (by omega)
        · rw [Nat.add_mul, Nat.one_mul]
          omega

/-- The counted loop is the loop of `Process`. -/
theorem C156_same (junk : Nat → UInt8) (read : Nat → Option Bytes) (closes : Bool) (f : Nat) :
    (readLoopC junk read closes f 0 Ts.empty 0).bind (fun p => .ok p.1) = readLoopT junk read closes f 0 Ts.empty :=
  loop_same junk read closes f 0 Ts.empty 0

/-- C156 in part: if there are `j` reads that give something, at most `j` characters are copied per character of the output, and at
least one. Missing: a bound that does not depend on the number of reads, see `C156_violated`. -/
theorem C156_partial {junk : Nat → UInt8} {read : Nat → Option Bytes} {closes : Bool} {f : Nat} {t : Ts} {k c : Nat} {e : Bool}
    (h : readLoopC junk read closes f 0 Ts.empty 0 = .ok ((t, c, e), k)) :
    ∃ j, (∀ x, x < j → ∃ b, read x = some b ∧ b ≠ []) ∧ (read j = none ∨ read j = some []) ∧ t.n ≤ k ∧ k ≤ j * t.n := by
  obtain ⟨j, q1, q2, q3, _, q4⟩ := loop_upper f 0 h
  simp only [Nat.zero_add, Ts.empty, Nat.add_zero] at q1 q2 q3 q4
  exact ⟨j, q1, q2, q3, q4⟩

/-- C156 fails: if no read gives more than `s` characters, then the number of characters copied is at least the square of the length of
the output, divided by `2 * s`. In the code `s` is 4096. -/
theorem C156_violated {junk : Nat → UInt8} {read : Nat → Option Bytes} {closes : Bool} {s : Nat} (hs : ∀ i b, read i = some b → b.length ≤ s)
    {f : Nat} {t : Ts} {k c : Nat} {e : Bool} (h : readLoopC junk read closes f 0 Ts.empty 0 = .ok ((t, c, e), k)) :
    t.n * t.n ≤ 2 * s * k := by
  have := (loop_cost hs f 0 h).2
  simpa [Ts.empty] using this

/-- A process that writes `n` characters, one at a time. -/
def single (n i : Nat) : Option Bytes := if i < n then some [120] else some []

theorem single_flatten : ∀ n, (List.replicate n ([120] : Bytes)).flatten.length = n
  | 0 => rfl
  | n + 1 => by rw [List.replicate_succ, List.flatten_cons, List.length_append, single_flatten n, List.length_singleton]; omega

/-- So there is no bound per character: for every `c` there is an output for which more than `c` times its length is copied. -/
theorem C156_unbounded_violated (junk : Nat → UInt8) (c : Nat) (hc : c < 2 ^ 28) :
    ∃ read f t k, readLoopC junk read true f 0 Ts.empty 0 = .ok ((t, 1, false), k) ∧ t.view.length = t.n ∧ 0 < t.n ∧ c * t.n < k := by
  obtain ⟨n, hn⟩ : ∃ n, n = 2 * c + 1 := ⟨_, rfl⟩
  obtain ⟨t, w, e2, e1, _⟩ := ProcessProps.readLoopT_spec junk (single n) true (List.replicate n [120]) 0 Ts.empty (n + 1)
    (fun b hb => by rw [(List.mem_replicate.1 hb).2]; simp)
    (fun j b hj => by
      obtain ⟨h1, h2⟩ := List.getElem?_eq_some_iff.1 hj
      rw [List.length_replicate] at h1
      rw [List.getElem_replicate] at h2
      rw [Nat.zero_add, single, if_pos h1, h2])
    ProcessProps.wf_empty (by rw [single_flatten]; simp only [Ts.empty]; omega) (by simp)
  have e1 := e1 (by rw [List.length_replicate, single, if_neg (by omega)])
  rw [← loop_same junk (single n) true (n + 1) 0 Ts.empty 0] at e1
  obtain ⟨⟨p, k⟩, e3, e4⟩ := Res.bind_eq_ok.1 e1
  cases e4
  have hv : t.view.length = n := by rw [e2, List.length_append, single_flatten]; simp [Ts.view, Ts.empty]
  have ht : t.n = n := by
    rw [Ts.view, List.length_take, w.1] at hv
    have := w.2
    omega
  have h2 := C156_violated (s := 1) (fun i b hb => by
    unfold single at hb
    split at hb <;> cases hb <;> simp) e3
  refine ⟨single n, n + 1, t, k, e3, by rw [hv, ht], by omega, ?_⟩
  rw [ht] at h2 ⊢
  have h3 : n * n = 2 * (c * n) + n := by
    conv => lhs; lhs; rw [hn]
    rw [Nat.add_mul, Nat.one_mul, Nat.mul_assoc]
  omega

/-- Three reads: 6 characters of output, 2 + 4 + 6 characters copied. -/
example : (readLoopC (fun _ => 0) (fun i => if i < 3 then some [1, 2] else some []) true 9 0 Ts.empty 0).bind
    (fun p => .ok (p.1.1.n, p.1.2.1, p.2)) = .ok (6, 1, 12) := by decide +kernel

end Lolly.ProcessCostProps
