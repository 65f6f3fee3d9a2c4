import Verif.Algorithms.SortThrow
import Verif.Algorithms.MergeSortProps

set_option autoImplicit false

/-! # Lemmas for C179 -/

namespace Lolly.SortThrowProps

open Lolly.SortThrow
open Lolly.SortSteps (Out)

variable {T α β : Type}

/-! ## What an exception of any assignment leaves -/

/-- The run from `st` to `st'` in which nothing throws has the arrays `S`, one per assignment, and if assignments throw it stops at
the first one with the array of that moment. -/
def Cuts (st st' : St T) (x : α) (c : (Nat → Bool) → Out (St T) α) (S : Nat → List T) : Prop :=
  S st.t = st.a ∧ S st'.t = st'.a ∧ st.t ≤ st'.t ∧
  (∀ j, st.t ≤ j → j < st'.t → ∃ i y, S (j + 1) = (S j).set i y) ∧
  ∀ fails, ((∀ j, st.t ≤ j → j < st'.t → fails j = false) ∧ c fails = .ret st' x) ∨
    ∃ j b, st.t ≤ j ∧ j < st'.t ∧ fails j = true ∧ (∀ i, st.t ≤ i → i < j → fails i = false) ∧ c fails = .thrown ⟨S j, b, j + 1⟩

/-- A computation either leaves its arrays or does not end, whatever throws, or it runs as in `Cuts`. -/
def Cut (st : St T) (c : (Nat → Bool) → Out (St T) α) : Prop :=
  ∀ st' x, c (fun _ => false) = .ret st' x → ∃ S, Cuts st st' x c S

theorem cut_ret (st : St T) (x : α) : Cut st (fun _ => Out.ret st x) := by
  intro st' y e
  cases e
  exact ⟨fun _ => st.a, rfl, rfl, Nat.le_refl _, fun j h1 h2 => by omega, fun fails => .inl ⟨fun j h1 h2 => by omega, rfl⟩⟩

theorem Cut.bind {st : St T} {c : (Nat → Bool) → Out (St T) α} {f : (Nat → Bool) → St T → α → Out (St T) β} (h : Cut st c)
    (g : ∀ st' x, Cut st' fun fails => f fails st' x) : Cut st fun fails => (c fails).bind (f fails) := by
  intro st2 y e
  dsimp only at e
  cases hc : c (fun _ => false) with
  | ret st1 x =>
    rw [hc] at e
    obtain ⟨S1, a1, b1, l1, n1, r1⟩ := h st1 x hc
    obtain ⟨S2, a2, b2, l2, n2, r2⟩ := g st1 x st2 y e
    have hS : ∀ j, st1.t ≤ j → (if j < st1.t then S1 j else S2 j) = S2 j := fun j hj => if_neg (by omega)
    have hS' : ∀ j, j ≤ st1.t → (if j < st1.t then S1 j else S2 j) = S1 j := by
      intro j hj
      by_cases hl : j < st1.t
      · exact if_pos hl
      · rw [if_neg hl, show j = st1.t by omega, a2, b1]
    refine ⟨fun j => if j < st1.t then S1 j else S2 j, ?_, ?_, by omega, ?_, ?_⟩
    · dsimp only
      rw [hS' _ l1, a1]
    · dsimp only
      rw [hS _ l2, b2]
    · intro j h1 h2
      dsimp only
      by_cases hj : j < st1.t
      · rw [hS' j (by omega), hS' (j + 1) (by omega)]
        exact n1 j h1 hj
      · rw [hS j (by omega), hS (j + 1) (by omega)]
        exact n2 j (by omega) h2
    · intro fails
      rcases r1 fails with ⟨q1, e1⟩ | ⟨j, b, j1, j2, hf, hb, e1⟩
      · rcases r2 fails with ⟨q2, e2⟩ | ⟨j, b, j1, j2, hf, hb, e2⟩
        · refine .inl ⟨fun j h1 h2 => ?_, ?_⟩
          · by_cases hj : j < st1.t
            · exact q1 j h1 hj
            · exact q2 j (by omega) h2
          · dsimp only
            rw [e1]
            exact e2
        · refine .inr ⟨j, b, by omega, j2, hf, fun i h1 h2 => ?_, ?_⟩
          · by_cases hj : i < st1.t
            · exact q1 i h1 hj
            · exact hb i (by omega) h2
          · dsimp only
            rw [e1, hS j j1]
            exact e2
      · refine .inr ⟨j, b, j1, by omega, hf, hb, ?_⟩
        dsimp only
        rw [e1, hS' j (by omega)]
        rfl
  | thrown s => rw [hc] at e; cases e
  | ub => rw [hc] at e; cases e
  | hang => rw [hc] at e; cases e

/-- The arrays after assignments. -/
theorem asg_cut (st : St T) (r : Res (List T × List T)) (h : ∀ m, r = .ok m → ∃ i y, m.1 = st.a.set i y) :
    Cut st fun fails => asg fails st r := by
  intro st' x e
  cases r with
  | ok m =>
    cases e
    obtain ⟨i, y, hm⟩ := h m rfl
    refine ⟨fun j => if j = st.t then st.a else m.1, if_pos rfl, if_neg (by simp), by simp, ?_, ?_⟩
    · intro j h1 h2
      have : j = st.t := by dsimp only at h2; omega
      subst this
      dsimp only
      rw [if_neg (by omega), if_pos rfl]
      exact ⟨i, y, hm⟩
    · intro fails
      cases hf : fails st.t with
      | false =>
        refine .inl ⟨fun j h1 h2 => ?_, ?_⟩
        · have : j = st.t := by dsimp only at h2; omega
          rw [this]; exact hf
        · simp only [asg, hf]; rfl
      | true =>
        refine .inr ⟨st.t, st.buf, Nat.le_refl _, by simp, hf, fun i h1 h2 => by omega, ?_⟩
        simp only [asg, hf, if_true]
  | thrown => cases e
  | ub => cases e
  | hang => cases e

theorem bufA_near (st : St T) (k i : Nat) : ∀ m, bufA st k i = .ok m → ∃ j y, m.1 = st.a.set j y := by
  intro m e
  unfold bufA at e
  obtain ⟨x, hx, e⟩ := Res.bind_eq_ok.1 e
  obtain ⟨b, -, e⟩ := Res.bind_eq_ok.1 e
  cases e
  obtain ⟨hi, hx⟩ := List.getElem?_eq_some_iff.1 (rd_eq_ok.1 hx)
  exact ⟨i, x, by rw [← hx, List.set_getElem_self]⟩

theorem wr_eq {a b : List T} {k : Nat} {x : T} (h : wr a k x = .ok b) : k < a.length ∧ b = a.set k x := by
  unfold wr at h
  split at h
  · next hl => cases h; exact ⟨hl, rfl⟩
  · cases h

theorem aA_near (st : St T) (k i : Nat) : ∀ m, aA st k i = .ok m → ∃ j y, m.1 = st.a.set j y := by
  intro m e
  unfold aA at e
  obtain ⟨x, hx, e⟩ := Res.bind_eq_ok.1 e
  obtain ⟨b, hb, e⟩ := Res.bind_eq_ok.1 e
  cases e
  exact ⟨k, x, (wr_eq hb).2⟩

theorem aBuf_near (st : St T) (k i : Nat) : ∀ m, aBuf st k i = .ok m → ∃ j y, m.1 = st.a.set j y := by
  intro m e
  unfold aBuf at e
  obtain ⟨x, hx, e⟩ := Res.bind_eq_ok.1 e
  obtain ⟨b, hb, e⟩ := Res.bind_eq_ok.1 e
  cases e
  exact ⟨k, x, (wr_eq hb).2⟩

theorem cmp_cut (leq : T → T → Bool) (i j : Nat) (st : St T) : Cut st fun _ => cmp leq i j st := by
  unfold cmp
  split
  · exact cut_ret st _
  · intro st' x e; cases e

theorem mergeLoop_cut (leq : T → T → Bool) (middle e : Nat) : ∀ (f i j k : Nat) (st : St T),
    Cut st fun fails => mergeLoop leq middle e fails f i j k st
  | 0, _, _, _, _ => by intro st' x e; cases e
  | f + 1, i, j, k, st => by
    simp only [mergeLoop]
    split
    · refine (cmp_cut leq i j st).bind fun st b => ?_
      cases b with
      | true =>
        exact (asg_cut st _ (bufA_near st k i)).bind fun st _ => mergeLoop_cut leq middle e f (i + 1) j (k + 1) st
      | false =>
        exact (asg_cut st _ (bufA_near st k j)).bind fun st _ => mergeLoop_cut leq middle e f i (j + 1) (k + 1) st
    · exact cut_ret st _

theorem leftover_cut : ∀ (n i k : Nat) (st : St T), Cut st fun fails => leftover fails n i k st
  | 0, _, _, st => cut_ret st ()
  | n + 1, i, k, st => by
    simp only [leftover]
    exact (asg_cut st _ (aA_near st k i)).bind fun st _ => leftover_cut n (i + 1) (k + 1) st

theorem copyBack_cut : ∀ (n i : Nat) (st : St T), Cut st fun fails => copyBack fails n i st
  | 0, _, st => cut_ret st ()
  | n + 1, i, st => by
    simp only [copyBack]
    exact (asg_cut st _ (aBuf_near st i i)).bind fun st _ => copyBack_cut n (i + 1) st

theorem sub_cut (leq : T → T → Bool) (n : Nat) : ∀ (s e : Nat) (st : St T), e - s ≤ n → Cut st fun fails => sub leq fails s e st := by
  induction n with
  | zero =>
    intro s e st hn
    have : (fun fails => sub leq fails s e st) = fun _ => Out.ret st () := by
      funext fails
      rw [sub, if_pos (by omega)]
    rw [this]
    exact cut_ret st ()
  | succ n ih =>
    intro s e st hn
    by_cases h1 : e - s ≤ 1
    · have : (fun fails => sub leq fails s e st) = fun _ => Out.ret st () := by
        funext fails
        rw [sub, if_pos h1]
      rw [this]
      exact cut_ret st ()
    · by_cases h2 : e - s = 2
      · have : (fun fails => sub leq fails s e st) = fun fails => (cmp leq s (s + 1) st).bind fun st b =>
            if !b then
              (asg fails st (bufA st s s)).bind fun st _ =>
              (asg fails st (aA st s (s + 1))).bind fun st _ =>
              asg fails st (aBuf st (s + 1) s)
            else .ret st () := by
          funext fails
          rw [sub, if_neg h1, if_pos h2]
        rw [this]
        refine (cmp_cut leq s (s + 1) st).bind fun st b => ?_
        cases b with
        | true => exact cut_ret st ()
        | false =>
          exact (asg_cut st _ (bufA_near st s s)).bind fun st _ =>
            (asg_cut st _ (aA_near st s (s + 1))).bind fun st _ => asg_cut st _ (aBuf_near st (s + 1) s)
      · have : (fun fails => sub leq fails s e st) = fun fails => (sub leq fails s ((s + e) / 2) st).bind fun st _ =>
            (sub leq fails ((s + e) / 2) e st).bind fun st _ =>
            (mergeLoop leq ((s + e) / 2) e fails (e - s + 1) s ((s + e) / 2) s st).bind fun st r =>
            (leftover fails ((s + e) / 2 - r.1) r.1 r.2.2 st).bind fun st _ =>
            copyBack fails (r.2.2 - s) s st := by
          funext fails
          rw [sub, if_neg h1, if_neg h2]
        rw [this]
        exact (ih s _ st (by omega)).bind fun st _ => (ih _ e st (by omega)).bind fun st _ =>
          (mergeLoop_cut leq _ e _ s _ s st).bind fun st r => (leftover_cut _ r.1 r.2.2 st).bind fun st _ =>
          copyBack_cut _ s st

/-! ## Runs in which nothing throws -/

/-- The outcome without the number of assignments. -/
def er : Out (St T) α → Res (List T × List T × α)
  | .ret s x => .ok (s.a, s.buf, x)
  | .thrown _ => .thrown
  | .ub => .ub
  | .hang => .hang

theorem er_bind {o : Out (St T) α} {f : St T → α → Out (St T) β} {g : List T × List T × α → Res (List T × List T × β)}
    (h : ∀ s x, er (f s x) = g (s.a, s.buf, x)) : er (o.bind f) = er o >>= g := by
  cases o with
  | ret s x => exact h s x
  | thrown s => rfl
  | ub => rfl
  | hang => rfl

theorem er_asg (st : St T) (r : Res (List T × List T)) : er (asg (fun _ => false) st r) = r >>= fun m => .ok (m.1, m.2, ()) := by
  cases r <;> rfl

theorem er_leftover : ∀ (n i k : Nat) (st : St T), er (leftover (fun _ => false) n i k st) =
    (forN (fun t a => rd a t >>= fun x => wr a (k + (t - i)) x) n i st.a) >>= fun a => .ok (a, st.buf, ())
  | 0, _, _, _ => rfl
  | n + 1, i, k, st => by
    have hb : ∀ (t : Nat) (a : List T), i + 1 ≤ t → (rd a t >>= fun x => wr a (k + (t - i)) x) =
        (rd a t >>= fun x => wr a (k + 1 + (t - (i + 1))) x) := by
      intro t a ht
      rw [show k + (t - i) = k + 1 + (t - (i + 1)) by omega]
    have hf : ∀ (m p : Nat) (a : List T), i + 1 ≤ p →
        forN (fun t a => rd a t >>= fun x => wr a (k + (t - i)) x) m p a =
        forN (fun t a => rd a t >>= fun x => wr a (k + 1 + (t - (i + 1))) x) m p a := by
      intro m
      induction m with
      | zero => intro p a hp; rfl
      | succ m ihm =>
        intro p a hp
        rw [forN, forN, hb p a hp]
        congr 1
        funext a
        exact ihm (p + 1) a (by omega)
    rw [leftover, er_bind (g := fun q => (forN (fun t a => rd a t >>= fun x => wr a (k + 1 + (t - (i + 1))) x) n (i + 1) q.1) >>=
      fun a => .ok (a, q.2.1, ())) fun s _ => er_leftover n (i + 1) (k + 1) s, er_asg, forN, Nat.sub_self, Nat.add_zero]
    unfold aA
    cases rd st.a i with
    | ok x =>
      simp only [Res.ok_bind]
      cases wr st.a k x with
      | ok a => simp only [Res.ok_bind]; rw [hf _ _ _ (Nat.le_refl _)]
      | thrown => rfl
      | ub => rfl
      | hang => rfl
    | thrown => rfl
    | ub => rfl
    | hang => rfl

theorem er_copyBack : ∀ (n i : Nat) (st : St T), er (copyBack (fun _ => false) n i st) =
    (forN (fun i a => rd st.buf i >>= fun x => wr a i x) n i st.a) >>= fun a => .ok (a, st.buf, ())
  | 0, _, _ => rfl
  | n + 1, i, st => by
    rw [copyBack, er_bind (g := fun q => (forN (fun i a => rd q.2.1 i >>= fun x => wr a i x) n (i + 1) q.1) >>=
      fun a => .ok (a, q.2.1, ())) fun s _ => er_copyBack n (i + 1) s, er_asg, forN]
    unfold aBuf
    cases rd st.buf i with
    | ok x =>
      simp only [Res.ok_bind]
      cases wr st.a i x <;> rfl
    | thrown => rfl
    | ub => rfl
    | hang => rfl

theorem er_mergeLoop (leq : T → T → Bool) (mid e : Nat) : ∀ (f i j k : Nat) (st : St T),
    er (mergeLoop leq mid e (fun _ => false) f i j k st) =
      (MergeSort.mergeLoop leq st.a mid e f st.buf i j k >>= fun r => .ok (st.a, r.1, r.2))
  | 0, _, _, _, _ => rfl
  | f + 1, i, j, k, st => by
    rw [mergeLoop, MergeSort.mergeLoop]
    by_cases hc : i < mid ∧ j < e
    · rw [if_pos hc, if_pos hc]
      cases hx : st.a[i]? with
      | none => simp [cmp, hx, Out.bind, er, rd]
      | some x =>
        cases hy : st.a[j]? with
        | none => simp [cmp, hx, hy, Out.bind, er, rd]
        | some y =>
          simp only [cmp, hx, hy, Out.bind, rd_eq_ok.2 hx, rd_eq_ok.2 hy, Res.ok_bind]
          cases leq x y with
          | true =>
            simp only [if_true, bufA, rd_eq_ok.2 hx, Res.ok_bind]
            cases wr st.buf k x with
            | ok b => exact er_mergeLoop leq mid e f (i + 1) j (k + 1) ⟨st.a, b, st.t + 1⟩
            | thrown => rfl
            | ub => rfl
            | hang => rfl
          | false =>
            simp only [Bool.false_eq_true, if_false, bufA, rd_eq_ok.2 hy, Res.ok_bind]
            cases wr st.buf k y with
            | ok b => exact er_mergeLoop leq mid e f i (j + 1) (k + 1) ⟨st.a, b, st.t + 1⟩
            | thrown => rfl
            | ub => rfl
            | hang => rfl
    · rw [if_neg hc, if_neg hc]
      rfl

theorem er_sub (leq : T → T → Bool) (n : Nat) : ∀ (s e : Nat) (st : St T), e - s ≤ n →
    er (sub leq (fun _ => false) s e st) = (MergeSort.sub leq st.a s e st.buf >>= fun r => .ok (r.1, r.2, ())) := by
  induction n with
  | zero =>
    intro s e st hn
    rw [sub, MergeSort.sub, if_pos (by omega), if_pos (by omega)]
    rfl
  | succ n ih =>
    intro s e st hn
    rw [sub, MergeSort.sub]
    by_cases h1 : e - s ≤ 1
    · rw [if_pos h1, if_pos h1]; rfl
    · rw [if_neg h1, if_neg h1]
      by_cases h2 : e - s = 2
      · rw [if_pos h2, if_pos h2]
        cases hx : st.a[s]? with
        | none => simp [cmp, hx, Out.bind, er, rd]
        | some x =>
          cases hy : st.a[s + 1]? with
          | none => simp [cmp, hx, hy, Out.bind, er, rd]
          | some y =>
            simp only [cmp, hx, hy, Out.bind, rd_eq_ok.2 hx, rd_eq_ok.2 hy, Res.ok_bind]
            cases hl : leq x y with
            | true => rfl
            | false =>
              simp only [Bool.not_false, if_true, bufA, rd_eq_ok.2 hx, Res.ok_bind]
              cases hw : wr st.buf s x with
              | ok b =>
                simp only [asg, aA, rd_eq_ok.2 hy, Res.ok_bind, Bool.false_eq_true, if_false]
                cases hw2 : wr st.a s y with
                | ok a =>
                  simp only [aBuf, Res.ok_bind]
                  cases hz : rd b s with
                  | ok z =>
                    simp only [Res.ok_bind]
                    cases hw3 : wr a (s + 1) z <;> rfl
                  | thrown => rfl
                  | ub => rfl
                  | hang => rfl
                | thrown => rfl
                | ub => rfl
                | hang => rfl
              | thrown => rfl
              | ub => rfl
              | hang => rfl
      · rw [if_neg h2, if_neg h2]
        dsimp only
        rw [er_bind (g := fun r => MergeSort.sub leq r.1 ((s + e) / 2) e r.2.1 >>= fun r =>
            MergeSort.mergeLoop leq r.1 ((s + e) / 2) e (e - s + 1) r.2 s ((s + e) / 2) s >>= fun q =>
            MergeSort.leftover r.1 q.2.1 ((s + e) / 2) q.2.2.2 >>= fun a =>
            MergeSort.copyBack a q.1 s q.2.2.2 >>= fun a => .ok (a, q.1, ())), ih _ _ _ (by omega)]
        · cases MergeSort.sub leq st.a s ((s + e) / 2) st.buf with
          | ok r =>
            simp only [Res.ok_bind]
            cases MergeSort.sub leq r.1 ((s + e) / 2) e r.2 with
            | ok r =>
              simp only [Res.ok_bind]
              cases MergeSort.mergeLoop leq r.1 ((s + e) / 2) e (e - s + 1) r.2 s ((s + e) / 2) s with
              | ok q =>
                simp only [Res.ok_bind]
                cases MergeSort.leftover r.1 q.2.1 ((s + e) / 2) q.2.2.2 with
                | ok a =>
                  simp only [Res.ok_bind]
                  cases MergeSort.copyBack a q.1 s q.2.2.2 <;> rfl
                | thrown => rfl
                | ub => rfl
                | hang => rfl
              | thrown => rfl
              | ub => rfl
              | hang => rfl
            | thrown => rfl
            | ub => rfl
            | hang => rfl
          | thrown => rfl
          | ub => rfl
          | hang => rfl
        intro st _
        rw [er_bind (g := fun r =>
            MergeSort.mergeLoop leq r.1 ((s + e) / 2) e (e - s + 1) r.2.1 s ((s + e) / 2) s >>= fun q =>
            MergeSort.leftover r.1 q.2.1 ((s + e) / 2) q.2.2.2 >>= fun a =>
            MergeSort.copyBack a q.1 s q.2.2.2 >>= fun a => .ok (a, q.1, ())), ih _ _ _ (by omega)]
        · cases MergeSort.sub leq st.a ((s + e) / 2) e st.buf <;> rfl
        intro st _
        rw [er_bind (g := fun r => MergeSort.leftover r.1 r.2.2.1 ((s + e) / 2) r.2.2.2.2 >>= fun a =>
            MergeSort.copyBack a r.2.1 s r.2.2.2.2 >>= fun a => .ok (a, r.2.1, ())), er_mergeLoop]
        · cases MergeSort.mergeLoop leq st.a ((s + e) / 2) e (e - s + 1) st.buf s ((s + e) / 2) s <;> rfl
        intro st r
        rw [er_bind (g := fun q => MergeSort.copyBack q.1 q.2.1 s r.2.2 >>= fun a => .ok (a, q.2.1, ())), er_leftover]
        · unfold MergeSort.leftover forUp
          cases forN (fun t a => rd a t >>= fun x => wr a (r.2.2 + (t - r.1)) x) ((s + e) / 2 - r.1) r.1 st.a <;> rfl
        intro st _
        rw [er_copyBack]
        rfl

/-- The run in which nothing throws is the sort of C13. -/
theorem sort_plain (leq : T → T → Bool) (dv : T) (a : List T) :
    ∃ st, sort leq dv (fun _ => false) a = .ret st () ∧ MergeSort.sort leq dv a = .ok st.a := by
  have h := er_sub leq a.length 0 a.length ⟨a, List.replicate a.length dv, 0⟩ (by omega)
  obtain ⟨buf, e, _⟩ := MergeSort.sub_spec leq a.length a 0 a.length (List.replicate a.length dv) (by omega) (by omega)
    (Nat.le_refl _) (by simp)
  unfold sort MergeSort.sort
  rw [e] at h ⊢
  cases hs : sub leq (fun _ => false) 0 a.length ⟨a, List.replicate a.length dv, 0⟩ with
  | ret st u =>
    rw [hs] at h
    simp only [er, Res.ok_bind, Res.ok.injEq, Prod.mk.injEq] at h
    exact ⟨st, rfl, by rw [h.1]; rfl⟩
  | thrown st => rw [hs] at h; cases h
  | ub => rw [hs] at h; cases h
  | hang => rw [hs] at h; cases h

end Lolly.SortThrowProps
