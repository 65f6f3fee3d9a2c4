import Verif.System.Globals
import Verif.ListUtil

/-!
# C165: functions used by global objects before and after `main`
-/

set_option autoImplicit false

namespace Lolly.GlobalsProps

open Lolly.Globals

/-! ## Specification -/

/-- One of the calls uses the object of a function. -/
def Uses (fs : List Fn) (l : Loc) : Prop := ∃ f ∈ fs, l ∈ locals f

/-- All that the constructors of global objects call, and all that their destructors call. -/
def ctors : List Init → List Fn
  | [] => []
  | .src _ :: r => ctors r
  | .user g :: r => g.ctor ++ ctors r

def dtors : List Init → List Fn
  | [] => []
  | .src _ :: r => dtors r
  | .user g :: r => g.dtor ++ dtors r

/-- When a program that is initialised in the order `init` is right: what `main` uses is there at all; what a constructor or
a destructor uses is initialised before the object (`a`); and if a destructor uses the object of a function, then this was
used before the construction of the global object was over, or not at all by anything that comes after it (`b`, `main`
and the destructors of `b`). -/
def Good (init : List Init) (main : List Fn) : Prop :=
  (∀ f ∈ main, ∀ s ∈ needs f, .src s ∈ init) ∧
  ∀ a g b, init = a ++ .user g :: b →
    (∀ f ∈ g.ctor ++ g.dtor, ∀ s ∈ needs f, .src s ∈ a) ∧
    ∀ l, Uses g.dtor l → Uses (ctors a ++ g.ctor) l ∨ ¬ Uses (ctors b ++ main ++ dtors b) l

/-! ## Lemmas -/

theorem uses_append {a b : List Fn} {l : Loc} : Uses (a ++ b) l ↔ Uses a l ∨ Uses b l := by
  constructor
  · rintro ⟨f, h, h'⟩
    rcases List.mem_append.1 h with h | h
    · exact .inl ⟨f, h, h'⟩
    · exact .inr ⟨f, h, h'⟩
  · rintro (⟨f, h, h'⟩ | ⟨f, h, h'⟩)
    · exact ⟨f, List.mem_append.2 (.inl h), h'⟩
    · exact ⟨f, List.mem_append.2 (.inr h), h'⟩

theorem uses_cons {f : Fn} {fs : List Fn} {l : Loc} : Uses (f :: fs) l ↔ l ∈ locals f ∨ Uses fs l := by
  constructor
  · rintro ⟨g, h, h'⟩
    rcases List.mem_cons.1 h with rfl | h
    · exact .inl h'
    · exact .inr ⟨g, h, h'⟩
  · rintro (h | ⟨g, h, h'⟩)
    · exact ⟨f, List.mem_cons_self, h⟩
    · exact ⟨g, List.mem_cons_of_mem _ h, h'⟩

theorem uses_nil {l : Loc} : ¬ Uses [] l := by rintro ⟨_, h, _⟩; cases h

theorem ctors_append (a b : List Init) : ctors (a ++ b) = ctors a ++ ctors b := by
  induction a with
  | nil => rfl
  | cons x a ih => cases x <;> simp [ctors, ih]

theorem dtors_append (a b : List Init) : dtors (a ++ b) = dtors a ++ dtors b := by
  induction a with
  | nil => rfl
  | cons x a ih => cases x <;> simp [dtors, ih]

theorem src_map {new : List Loc} {d : List Done} {s : Src} : Done.src s ∈ new.map Done.loc ++ d ↔ Done.src s ∈ d := by
  simp

theorem loc_map {new : List Loc} {d : List Done} {l : Loc} :
    Done.loc l ∈ new.map Done.loc ++ d ↔ l ∈ new ∨ Done.loc l ∈ d := by
  simp

theorem useLocs_spec (ls : List Loc) : ∀ st : State,
    ((∀ l ∈ ls, l ∉ st.dead) → ∃ new : List Loc, useLocs st ls = .ok ⟨new.map .loc ++ st.done, st.dead⟩ ∧ new.Nodup ∧
      ∀ l, l ∈ new ↔ l ∈ ls ∧ Done.loc l ∉ st.done) ∧
    ((¬ ∀ l ∈ ls, l ∉ st.dead) → useLocs st ls = .ub) := by
  induction ls with
  | nil => intro st; exact ⟨fun _ => ⟨[], rfl, List.nodup_nil, by simp⟩, fun h => absurd (by simp) h⟩
  | cons k r ih =>
    intro st
    rw [useLocs]
    by_cases hk : k ∈ st.dead
    · refine ⟨fun h => absurd hk (h k List.mem_cons_self), fun _ => ?_⟩
      rw [useLoc, if_pos hk]; rfl
    · by_cases hd : Done.loc k ∈ st.done
      · rw [useLoc, if_neg hk, if_pos hd, Res.ok_bind]
        refine ⟨fun h => ?_, fun h => (ih st).2 fun h' => h fun l hl => ?_⟩
        · obtain ⟨new, e, hn, hm⟩ := (ih st).1 fun l hl => h l (List.mem_cons_of_mem _ hl)
          refine ⟨new, e, hn, fun l => (hm l).trans ?_⟩
          constructor
          · exact fun h => ⟨List.mem_cons_of_mem _ h.1, h.2⟩
          · rintro ⟨h1, h2⟩
            rcases List.mem_cons.1 h1 with rfl | h1
            · exact absurd hd h2
            · exact ⟨h1, h2⟩
        · rcases List.mem_cons.1 hl with rfl | hl
          · exact hk
          · exact h' l hl
      · rw [useLoc, if_neg hk, if_neg hd, Res.ok_bind]
        refine ⟨fun h => ?_, fun h => (ih _).2 fun h' => h fun l hl => ?_⟩
        · obtain ⟨new, e, hn, hm⟩ := (ih ⟨.loc k :: st.done, st.dead⟩).1 fun l hl => h l (List.mem_cons_of_mem _ hl)
          refine ⟨new ++ [k], by rw [e]; simp, ?_, fun l => ?_⟩
          · rw [List.nodup_append]
            refine ⟨hn, by simp, fun a ha b hb => ?_⟩
            rw [List.mem_singleton.1 hb]
            rintro rfl
            exact ((hm a).1 ha).2 List.mem_cons_self
          · rw [List.mem_append, hm l, List.mem_singleton, List.mem_cons, List.mem_cons]
            constructor
            · rintro (⟨h1, h2⟩ | rfl)
              · exact ⟨.inr h1, fun h => h2 (.inr h)⟩
              · exact ⟨.inl rfl, hd⟩
            · rintro ⟨h1, h2⟩
              by_cases hlk : l = k
              · exact .inr hlk
              · refine .inl ⟨h1.resolve_left hlk, fun h => ?_⟩
                rcases h with h | h
                · cases h; exact hlk rfl
                · exact h2 h
        · rcases List.mem_cons.1 hl with rfl | hl
          · exact hk
          · exact h' l hl

/-- When calls are defined. -/
def CallsOk (st : State) (fs : List Fn) : Prop :=
  (∀ f ∈ fs, ∀ s ∈ needs f, Done.src s ∈ st.done) ∧ ∀ l, Uses fs l → l ∉ st.dead

theorem calls_spec (fs : List Fn) : ∀ st : State,
    (CallsOk st fs → ∃ new : List Loc, calls st fs = .ok ⟨new.map .loc ++ st.done, st.dead⟩ ∧ new.Nodup ∧
      ∀ l, l ∈ new ↔ Uses fs l ∧ Done.loc l ∉ st.done) ∧
    (¬ CallsOk st fs → calls st fs = .ub) := by
  induction fs with
  | nil =>
    intro st
    exact ⟨fun _ => ⟨[], rfl, List.nodup_nil, fun l => ⟨fun h => (by cases h), fun h => absurd h.1 uses_nil⟩⟩,
      fun h => absurd ⟨by simp, fun l hl => absurd hl uses_nil⟩ h⟩
  | cons f r ih =>
    intro st
    have hall : ((needs f).all fun s => decide (Done.src s ∈ st.done)) = true ↔ ∀ s ∈ needs f, Done.src s ∈ st.done := by
      simp
    rw [calls]
    constructor
    · intro h
      have h1 : ∀ s ∈ needs f, Done.src s ∈ st.done := h.1 f List.mem_cons_self
      obtain ⟨n1, e1, hn1, hm1⟩ := (useLocs_spec (locals f) st).1 fun l hl => h.2 l (uses_cons.2 (.inl hl))
      have hc : call st f = .ok ⟨n1.map .loc ++ st.done, st.dead⟩ := by rw [call, if_pos (hall.2 h1), e1]
      rw [hc, Res.ok_bind]
      obtain ⟨n2, e2, hn2, hm2⟩ := (ih ⟨n1.map .loc ++ st.done, st.dead⟩).1
        ⟨fun g hg s hs => src_map.2 (h.1 g (List.mem_cons_of_mem _ hg) s hs), fun l hl => h.2 l (uses_cons.2 (.inr hl))⟩
      refine ⟨n2 ++ n1, by rw [e2]; simp, ?_, fun l => ?_⟩
      · rw [List.nodup_append]
        refine ⟨hn2, hn1, fun a ha b hb => ?_⟩
        rintro rfl
        exact ((hm2 a).1 ha).2 (loc_map.2 (.inl hb))
      · rw [List.mem_append, hm2 l, hm1 l, loc_map, uses_cons, hm1 l]
        by_cases h1 : l ∈ locals f <;> by_cases h2 : Uses r l <;> by_cases h3 : Done.loc l ∈ st.done <;> simp [h1, h2, h3]
    · intro h
      by_cases h1 : ∀ s ∈ needs f, Done.src s ∈ st.done
      · by_cases h2 : ∀ l ∈ locals f, l ∉ st.dead
        · obtain ⟨n1, e1, hn1, hm1⟩ := (useLocs_spec (locals f) st).1 h2
          have hc : call st f = .ok ⟨n1.map .loc ++ st.done, st.dead⟩ := by rw [call, if_pos (hall.2 h1), e1]
          rw [hc, Res.ok_bind]
          refine (ih _).2 fun h' => h ⟨fun g hg s hs => ?_, fun l hl => ?_⟩
          · rcases List.mem_cons.1 hg with rfl | hg
            · exact h1 s hs
            · exact src_map.1 (h'.1 g hg s hs)
          · rcases uses_cons.1 hl with hl | hl
            · exact h2 l hl
            · exact h'.2 l hl
        · have hc : call st f = .ub := by rw [call, if_pos (hall.2 h1), (useLocs_spec (locals f) st).2 h2]
          rw [hc]; rfl
      · have hc : call st f = .ub := by rw [call, if_neg (fun h => h1 (hall.1 h))]
        rw [hc]; rfl

theorem initAll_append (a b : List Init) : ∀ st, initAll st (a ++ b) = (initAll st a >>= fun st => initAll st b) := by
  induction a with
  | nil => intro st; rfl
  | cons x a ih =>
    intro st
    rw [List.cons_append, initAll, initAll]
    cases initOne st x <;> simp [ih]

/-- All objects in functions. -/
def locsAll : List Loc := [.tempDir, .language]

/-- Those that have not been constructed. -/
def left (st : State) : List Loc := locsAll.filter fun l => decide (Done.loc l ∉ st.done) && decide (l ∉ st.dead)

/-- The number of objects that are or may still be constructed. -/
def size (st : State) : Nat := st.done.length + (left st).length

theorem mem_left {st : State} {l : Loc} : l ∈ left st ↔ Done.loc l ∉ st.done ∧ l ∉ st.dead := by
  have : l ∈ locsAll := by cases l <;> decide
  simp [left, this]

theorem nodup_left (st : State) : (left st).Nodup := List.Pairwise.filter _ (by decide)

theorem size_new {st : State} {new : List Loc} (hn : new.Nodup) (h : ∀ l ∈ new, Done.loc l ∉ st.done ∧ l ∉ st.dead) :
    size ⟨new.map .loc ++ st.done, st.dead⟩ ≤ size st := by
  have : (new ++ left ⟨new.map .loc ++ st.done, st.dead⟩).length ≤ (left st).length := by
    refine nodup_subset_length ?_ fun l hl => ?_
    · rw [List.nodup_append]
      refine ⟨hn, nodup_left _, fun a ha b hb => ?_⟩
      rintro rfl
      exact (mem_left.1 hb).1 (loc_map.2 (.inl ha))
    · rcases List.mem_append.1 hl with hl | hl
      · exact mem_left.2 (h l hl)
      · exact mem_left.2 ⟨fun h => (mem_left.1 hl).1 (loc_map.2 (.inr h)), (mem_left.1 hl).2⟩
  rw [List.length_append] at this
  unfold size
  simp only [List.length_append, List.length_map]
  omega

theorem size_pop {x : Done} {r : List Done} {d d' : List Loc}
    (h : ∀ l, Done.loc l ∉ r → l ∉ d' → Done.loc l ∉ x :: r ∧ l ∉ d) :
    size ⟨r, d'⟩ + 1 ≤ size ⟨x :: r, d⟩ := by
  have : (left ⟨r, d'⟩).length ≤ (left ⟨x :: r, d⟩).length :=
    nodup_subset_length (nodup_left _) fun l hl => mem_left.2 (h l (mem_left.1 hl).1 (mem_left.1 hl).2)
  unfold size
  simp only [List.length_cons]
  omega

/-- When the end of the program is defined, if the objects in `D` have been destroyed. -/
def Fin : List Done → (Loc → Prop) → Prop
  | [], _ => True
  | .src _ :: r, D => Fin r D
  | .loc l :: r, D => Fin r fun k => D k ∨ k = l
  | .user fs :: r, D =>
    ((∀ f ∈ fs, ∀ s ∈ needs f, Done.src s ∈ r) ∧ ∀ l, Uses fs l → ¬ D l) ∧
    Fin r fun k => D k ∨ (Uses fs k ∧ Done.loc k ∉ r)

theorem fin_congr (r : List Done) : ∀ {D D' : Loc → Prop}, (∀ l, D l ↔ D' l) → (Fin r D ↔ Fin r D') := by
  intro D D' h
  have : D = D' := funext fun l => propext (h l)
  rw [this]

theorem fin_map (r : List Done) (new : List Loc) : ∀ D : Loc → Prop,
    Fin (new.map .loc ++ r) D ↔ Fin r fun k => D k ∨ k ∈ new := by
  induction new with
  | nil => intro D; exact fin_congr r (by simp)
  | cons l new ih =>
    intro D
    rw [List.map_cons, List.cons_append, Fin, ih]
    refine fin_congr r fun k => ?_
    rw [List.mem_cons, or_assoc]

theorem finish_spec (n : Nat) : ∀ st : State, size st ≤ n →
    (Fin st.done (· ∈ st.dead) → ∃ d, finish n st = .ok ⟨[], d⟩) ∧
    (¬ Fin st.done (· ∈ st.dead) → finish n st = .ub) := by
  induction n with
  | zero =>
    rintro ⟨dn, dd⟩ h
    have : dn = [] := by
      cases dn with
      | nil => rfl
      | cons x r => simp [size] at h
    subst this
    exact ⟨fun _ => ⟨dd, rfl⟩, fun h => absurd trivial h⟩
  | succ n ih =>
    rintro ⟨dn, dd⟩ h
    cases dn with
    | nil => exact ⟨fun _ => ⟨dd, rfl⟩, fun h => absurd trivial h⟩
    | cons x r =>
      cases x with
      | src s =>
        have hs := size_pop (x := .src s) (r := r) (d := dd) (d' := dd) (fun l h1 h2 => ⟨by simpa using h1, h2⟩)
        exact ih ⟨r, dd⟩ (by omega)
      | loc l =>
        have hs := size_pop (x := .loc l) (r := r) (d := dd) (d' := l :: dd) (by
          intro k h1 h2
          rw [List.mem_cons, not_or] at h2 ⊢
          exact ⟨⟨fun e => h2.1 (by cases e; rfl), h1⟩, h2.2⟩)
        have hi := ih ⟨r, l :: dd⟩ (by omega)
        have hf : Fin r (fun k => k ∈ dd ∨ k = l) ↔ Fin r (· ∈ l :: dd) := fin_congr r (by simp [or_comm])
        show (Fin r (fun k => k ∈ dd ∨ k = l) → ∃ d, finish n ⟨r, l :: dd⟩ = .ok ⟨[], d⟩) ∧
          (¬ Fin r (fun k => k ∈ dd ∨ k = l) → finish n ⟨r, l :: dd⟩ = .ub)
        rw [hf]; exact hi
      | user fs =>
        have hs := size_pop (x := .user fs) (r := r) (d := dd) (d' := dd) (fun l h1 h2 => ⟨by simpa using h1, h2⟩)
        have hc := calls_spec fs ⟨r, dd⟩
        show (Fin (.user fs :: r) (· ∈ dd) → ∃ d, (calls ⟨r, dd⟩ fs >>= finish n) = .ok ⟨[], d⟩) ∧
          (¬ Fin (.user fs :: r) (· ∈ dd) → (calls ⟨r, dd⟩ fs >>= finish n) = .ub)
        rw [Fin]
        by_cases hk : CallsOk ⟨r, dd⟩ fs
        · obtain ⟨new, e, hn, hm⟩ := hc.1 hk
          have h2 : ∀ l ∈ new, Done.loc l ∉ r ∧ l ∉ dd := fun l hl => ⟨((hm l).1 hl).2, hk.2 l ((hm l).1 hl).1⟩
          have hs2 := size_new (st := ⟨r, dd⟩) hn h2
          have hi := ih ⟨new.map .loc ++ r, dd⟩ (by dsimp only at hs2; omega)
          rw [e, Res.ok_bind]
          dsimp only at hi ⊢
          rw [fin_map] at hi
          have hf : Fin r (fun k => k ∈ dd ∨ k ∈ new) ↔ Fin r (fun k => k ∈ dd ∨ (Uses fs k ∧ Done.loc k ∉ r)) :=
            fin_congr r fun k => by rw [hm k]
          rw [hf] at hi
          exact ⟨fun h => hi.1 h.2, fun h => hi.2 fun h' => h ⟨hk, h'⟩⟩
        · rw [hc.2 hk]
          exact ⟨fun h => absurd h.1 hk, fun _ => rfl⟩

/-- The state after a part of the initialisation. -/
structure After (a : List Init) (st : State) : Prop where
  src : ∀ s, Done.src s ∈ st.done ↔ Init.src s ∈ a
  loc : ∀ l, Done.loc l ∈ st.done ↔ Uses (ctors a) l
  dead : st.dead = []
  size : size st ≤ a.length + nLocs

theorem snoc {α : Type} (l : List α) : l = [] ∨ ∃ a x, l = a ++ [x] := by
  rcases List.eq_nil_or_concat l with h | ⟨a, x, h⟩
  · exact .inl h
  · exact .inr ⟨a, x, by rw [h, List.concat_eq_append]⟩

theorem split_concat {α : Type} {a a1 b1 : List α} {x y : α} : a ++ [x] = a1 ++ y :: b1 ↔
    (b1 = [] ∧ a1 = a ∧ y = x) ∨ ∃ b, b1 = b ++ [x] ∧ a = a1 ++ y :: b := by
  constructor
  · intro h
    rcases snoc b1 with rfl | ⟨b, z, rfl⟩
    · have := List.append_inj' h rfl
      simp at this
      exact .inl ⟨rfl, this.1.symm, this.2.symm⟩
    · have h : a ++ [x] = (a1 ++ y :: b) ++ [z] := by simpa using h
      have := List.append_inj' h rfl
      simp at this
      exact .inr ⟨b, by rw [this.2], this.1⟩
  · rintro (⟨rfl, rfl, rfl⟩ | ⟨b, rfl, rfl⟩) <;> simp

/-- Constructors find what they need. -/
def CtorsOk (init : List Init) : Prop :=
  ∀ a g b, init = a ++ .user g :: b → ∀ f ∈ g.ctor, ∀ s ∈ needs f, .src s ∈ a

theorem init_spec (n : Nat) : ∀ init : List Init, init.length = n →
    (CtorsOk init → ∃ st, initAll ⟨[], []⟩ init = .ok st ∧ After init st) ∧
    (¬ CtorsOk init → initAll ⟨[], []⟩ init = .ub) := by
  induction n with
  | zero =>
    intro init h
    have := List.length_eq_zero_iff.1 h
    subst this
    exact ⟨fun _ => ⟨_, rfl, by simp, fun l => by simp [ctors, uses_nil], rfl, by simp [size, nLocs, left, locsAll]⟩,
      fun h => absurd (fun a g b e => by simp at e) h⟩
  | succ n ih =>
    intro init h
    rcases snoc init with rfl | ⟨a, x, rfl⟩
    · cases h
    have hl : a.length = n := by simpa using h
    have hi := ih a hl
    rw [initAll_append]
    by_cases ha : CtorsOk a
    · obtain ⟨st, e, hst⟩ := hi.1 ha
      rw [e, Res.ok_bind]
      cases x with
      | src s =>
        have hc : CtorsOk (a ++ [.src s]) := by
          intro a1 g b1 e
          rcases split_concat.1 e with ⟨_, _, h⟩ | ⟨b, rfl, rfl⟩
          · cases h
          · exact ha a1 g b rfl
        refine ⟨fun _ => ⟨_, rfl, ?_, ?_, hst.dead, ?_⟩, fun h => absurd hc h⟩
        · intro k
          simp [hst.src k, or_comm]
        · intro k
          simp [hst.loc k, ctors_append, ctors]
        · have := hst.size
          have h2 : left ⟨.src s :: st.done, st.dead⟩ = left st := by simp [left]
          unfold size at this ⊢
          rw [h2]
          simp only [List.length_cons, List.length_append, List.length_nil]
          omega
      | user g =>
        have hiff : CtorsOk (a ++ [.user g]) ↔ CallsOk st g.ctor := by
          constructor
          · intro h
            refine ⟨fun f hf s hs => (hst.src s).2 (h a g [] rfl f hf s hs), fun l _ => ?_⟩
            rw [hst.dead]; simp
          · intro hk a1 g1 b1 e
            rcases split_concat.1 e with ⟨_, rfl, h'⟩ | ⟨b, rfl, rfl⟩
            · cases h'
              exact fun f hf s hs => (hst.src s).1 (hk.1 f hf s hs)
            · exact ha a1 g1 b rfl
        rw [hiff]
        show (_ → ∃ st', ((calls st g.ctor >>= fun st => .ok ⟨.user g.dtor :: st.done, st.dead⟩) >>= fun st => initAll st []) = _ ∧ _) ∧
          (_ → ((calls st g.ctor >>= fun st => .ok ⟨.user g.dtor :: st.done, st.dead⟩) >>= fun st => initAll st []) = _)
        have hc := calls_spec g.ctor st
        refine ⟨fun h => ?_, fun h => by rw [hc.2 h]; rfl⟩
        obtain ⟨new, e, hn, hm⟩ := hc.1 h
        rw [e]
        refine ⟨_, rfl, ?_, ?_, hst.dead, ?_⟩
        · intro k
          simp [hst.src k]
        · intro k
          simp only [List.mem_cons, reduceCtorEq, false_or, loc_map, hm k, hst.loc k, ctors_append, ctors,
            List.append_nil, uses_append]
          by_cases h1 : Uses (ctors a) k <;> by_cases h2 : Uses g.ctor k <;> simp [h1, h2]
        · have h2 : left ⟨.user g.dtor :: (new.map .loc ++ st.done), st.dead⟩ = left ⟨new.map .loc ++ st.done, st.dead⟩ := by
            simp [left]
          have h3 := size_new (st := st) hn fun l hl => ⟨((hm l).1 hl).2, by rw [hst.dead]; simp⟩
          have h4 := hst.size
          unfold size at h3 h4 ⊢
          dsimp only at h3 ⊢
          rw [h2]
          simp only [List.length_cons, List.length_append, List.length_nil] at h3 ⊢
          omega
    · have hc : ¬ CtorsOk (a ++ [x]) := fun h => ha fun a1 g b e => h a1 g (b ++ [x]) (by rw [e]; simp)
      rw [hi.2 ha]
      exact ⟨fun h => absurd h hc, fun _ => rfl⟩

/-- Destructors find what they need, if the objects in `U` are used after the initialisation. -/
def DtorsOk (init : List Init) (U : Loc → Prop) : Prop :=
  ∀ a g b, init = a ++ .user g :: b →
    (∀ f ∈ g.dtor, ∀ s ∈ needs f, .src s ∈ a) ∧
    ∀ l, Uses g.dtor l → Uses (ctors a ++ g.ctor) l ∨ ¬ (U l ∨ Uses (ctors b ++ dtors b) l)

theorem fin_after (n : Nat) : ∀ (init : List Init) (st : State) (U D : Loc → Prop), init.length = n →
    initAll ⟨[], []⟩ init = .ok st → (∀ l, D l ↔ ¬ Uses (ctors init) l ∧ U l) →
    (Fin st.done D ↔ DtorsOk init U) := by
  induction n with
  | zero =>
    intro init st U D h e _
    have := List.length_eq_zero_iff.1 h
    subst this
    cases e
    exact ⟨fun _ a g b e => by simp at e, fun _ => trivial⟩
  | succ n ih =>
    intro init st U D h e hD
    rcases snoc init with rfl | ⟨a, x, rfl⟩
    · cases h
    have hl : a.length = n := by simpa using h
    rw [initAll_append, Res.bind_eq_ok] at e
    obtain ⟨s0, e0, e⟩ := e
    have hst : After a s0 := by
      have hi := init_spec n a hl
      by_cases ha : CtorsOk a
      · obtain ⟨s1, e1, h1⟩ := hi.1 ha
        rw [e0] at e1; cases e1; exact h1
      · rw [hi.2 ha] at e0; cases e0
    cases x with
    | src s =>
      cases e
      show Fin s0.done D ↔ _
      rw [ih a s0 U D hl e0 (by intro l; rw [hD l, ctors_append]; simp [ctors])]
      constructor
      · intro h a1 g b1 e
        rcases split_concat.1 e with ⟨_, _, h'⟩ | ⟨b, rfl, rfl⟩
        · cases h'
        · have := h a1 g b rfl
          simpa [ctors_append, dtors_append, ctors, dtors] using this
      · intro h a1 g b e
        have := h a1 g (b ++ [.src s]) (by rw [e]; simp)
        simpa [ctors_append, dtors_append, ctors, dtors] using this
    | user g =>
      have e : ((calls s0 g.ctor >>= fun st => .ok ⟨.user g.dtor :: st.done, st.dead⟩) >>= fun st => initAll st []) =
        .ok st := e
      have hc := calls_spec g.ctor s0
      by_cases hk : CallsOk s0 g.ctor
      · obtain ⟨new, e1, hn, hm⟩ := hc.1 hk
        rw [e1] at e
        cases e
        show Fin (.user g.dtor :: (new.map .loc ++ s0.done)) D ↔ _
        rw [Fin, fin_map, ih a s0 (fun l => U l ∨ Uses g.ctor l ∨ Uses g.dtor l) _ hl e0 ?_]
        · constructor
          · rintro ⟨⟨h1, h2⟩, h3⟩ a1 g1 b1 e
            rcases split_concat.1 e with ⟨rfl, rfl, h'⟩ | ⟨b, rfl, rfl⟩
            · cases h'
              refine ⟨fun f hf s hs => (hst.src s).1 (src_map.1 (h1 f hf s hs)), fun l hl => ?_⟩
              have := h2 l hl
              rw [hD l, ctors_append] at this
              simp only [ctors, dtors, List.append_nil, uses_nil, or_false] at this ⊢
              by_cases h4 : Uses (ctors a1 ++ g.ctor) l
              · exact .inl h4
              · exact .inr fun h5 => this ⟨h4, h5⟩
            · have := h3 a1 g1 b rfl
              refine ⟨this.1, fun l hl => ?_⟩
              have := this.2 l hl
              simp only [ctors_append, dtors_append, ctors, dtors, List.append_nil, uses_append, not_or] at this ⊢
              rcases this with h | h
              · exact .inl h
              · exact .inr ⟨h.1.1, ⟨h.2.1, h.1.2.1⟩, h.2.2, h.1.2.2⟩
          · intro h
            refine ⟨⟨fun f hf s hs => src_map.2 ((hst.src s).2 ((h a g [] rfl).1 f hf s hs)), fun l hl => ?_⟩, ?_⟩
            · have := (h a g [] rfl).2 l hl
              rw [hD l, ctors_append]
              simp only [ctors, dtors, List.append_nil, uses_nil, or_false] at this ⊢
              rintro ⟨h1, h2⟩
              exact this.elim h1 fun h3 => h3 h2
            · intro a1 g1 b e
              have := h a1 g1 (b ++ [.user g]) (by rw [e]; simp)
              refine ⟨this.1, fun l hl => ?_⟩
              have := this.2 l hl
              simp only [ctors_append, dtors_append, ctors, dtors, List.append_nil, uses_append, not_or] at this ⊢
              rcases this with h | h
              · exact .inl h
              · exact .inr ⟨⟨h.1, h.2.1.2, h.2.2.2⟩, h.2.1.1, h.2.2.1⟩
        · intro l
          rw [hD l, hm l, loc_map, hm l, hst.loc l, ctors_append]
          simp only [ctors, List.append_nil, uses_append]
          by_cases h1 : Uses (ctors a) l <;> by_cases h2 : Uses g.ctor l <;> by_cases h3 : Uses g.dtor l <;>
            by_cases h4 : U l <;> simp [h1, h2, h3, h4]
      · rw [hc.2 hk] at e; cases e

/-! ## C165 -/

/-- C165, exactly: a program works if and only if it is `Good`, and otherwise its behaviour is undefined. If it works,
everything has been destroyed in the end. -/
theorem C165_exact (init : List Init) (main : List Fn) :
    (Good init main ∧ ∃ d, run init main = .ok ⟨[], d⟩) ∨ (¬ Good init main ∧ run init main = .ub) := by
  have hi := init_spec init.length init rfl
  by_cases h1 : CtorsOk init
  · obtain ⟨st, e, hst⟩ := hi.1 h1
    have hc := calls_spec main st
    by_cases h2 : CallsOk st main
    · obtain ⟨new, e2, hn, hm⟩ := hc.1 h2
      have hs := size_new (st := st) hn fun l hl => ⟨((hm l).1 hl).2, by rw [hst.dead]; simp⟩
      have hf := finish_spec (init.length + nLocs) ⟨new.map .loc ++ st.done, st.dead⟩ (by have := hst.size; omega)
      have hr : run init main = finish (init.length + nLocs) ⟨new.map .loc ++ st.done, st.dead⟩ := by
        show (initAll ⟨[], []⟩ init >>= fun st => calls st main >>= finish _) = _
        rw [e, Res.ok_bind, e2, Res.ok_bind]
      dsimp only at hf
      rw [fin_map, fin_after init.length init st (Uses main) _ rfl e (by
        intro l; rw [hst.dead, hm l, hst.loc l]; simp [and_comm])] at hf
      have hg : Good init main ↔ DtorsOk init (Uses main) := by
        constructor
        · intro h a g b eq
          refine ⟨fun f hf => (h.2 a g b eq).1 f (List.mem_append.2 (.inr hf)), fun l hl => ?_⟩
          have := (h.2 a g b eq).2 l hl
          simp only [uses_append] at this ⊢
          rcases this with h | h
          · exact .inl h
          · refine .inr fun h' => h ?_
            rcases h' with h' | h' | h'
            · exact .inl (.inr h')
            · exact .inl (.inl h')
            · exact .inr h'
        · intro h
          refine ⟨fun f hf s hs => (hst.src s).1 (h2.1 f hf s hs), fun a g b eq => ⟨fun f hf => ?_, fun l hl => ?_⟩⟩
          · rcases List.mem_append.1 hf with hf | hf
            · exact h1 a g b eq f hf
            · exact (h a g b eq).1 f hf
          · have := (h a g b eq).2 l hl
            simp only [uses_append] at this ⊢
            rcases this with h | h
            · exact .inl h
            · refine .inr fun h' => h ?_
              rcases h' with (h' | h') | h'
              · exact .inr (.inl h')
              · exact .inl h'
              · exact .inr (.inr h')
      rw [hg, hr]
      by_cases h3 : DtorsOk init (Uses main)
      · exact .inl ⟨h3, hf.1 h3⟩
      · exact .inr ⟨h3, hf.2 h3⟩
    · refine .inr ⟨fun h => h2 ⟨fun f hf s hs => (hst.src s).2 (h.1 f hf s hs), fun l _ => by rw [hst.dead]; simp⟩, ?_⟩
      show (initAll ⟨[], []⟩ init >>= fun st => calls st main >>= finish _) = _
      rw [e, Res.ok_bind, hc.2 h2]; rfl
  · refine .inr ⟨fun h => h1 fun a g b eq f hf => (h.2 a g b eq).1 f (List.mem_append.2 (.inl hf)), ?_⟩
    show (initAll ⟨[], []⟩ init >>= fun st => calls st main >>= finish _) = _
    rw [hi.2 h1]; rfl

/-- Functions that use no object of a function. -/
def NoLoc (f : Fn) : Prop := locals f = []

/-- C165, positive part: if the library is initialised before the objects of the program, their constructors may use all
functions. Their destructors may use all functions but the ones with an object of their own, and these if the constructor
has used them. `main` may use all functions. Missing: other orders, see `C165_order_violated`, and other uses in
destructors, see `C165_exit_violated`. -/
theorem C165_after_partial (srcs : List Src) (hs : ∀ s, s ∈ srcs) (gs : List Global) (main : List Fn)
    (hd : ∀ g ∈ gs, ∀ f ∈ g.dtor, NoLoc f ∨ f ∈ g.ctor) :
    ∃ d, run (srcs.map .src ++ gs.map .user) main = .ok ⟨[], d⟩ := by
  rcases C165_exact (srcs.map .src ++ gs.map .user) main with ⟨_, h⟩ | ⟨h, _⟩
  · exact h
  · refine absurd ⟨fun f _ s _ => List.mem_append.2 (.inl (List.mem_map.2 ⟨s, hs s, rfl⟩)), fun a g b e => ?_⟩ h
    have hg : g ∈ gs := by
      have : Init.user g ∈ srcs.map Init.src ++ gs.map Init.user := by rw [e]; simp
      simpa using this
    constructor
    · intro f _ s _
      rw [List.append_eq_append_iff] at e
      rcases e with ⟨c, e1, _⟩ | ⟨c, e1, e2⟩
      · rw [e1]; exact List.mem_append.2 (.inl (List.mem_map.2 ⟨s, hs s, rfl⟩))
      · cases c with
        | nil => rw [List.append_nil] at e1; rw [← e1]; exact List.mem_map.2 ⟨s, hs s, rfl⟩
        | cons x c =>
          have : Init.user g ∈ srcs.map Init.src := by
            rw [e1]
            have : x = .user g := by simp at e2; exact e2.1.symm
            rw [this]; simp
          simp at this
    · rintro l ⟨f, hf, hl⟩
      rcases hd g hg f hf with h | h
      · rw [NoLoc] at h; rw [h] at hl; cases hl
      · exact .inl (uses_append.2 (.inr ⟨f, h, hl⟩))

/-- C165: functions that use only their arguments may be used everywhere, in every order of the initialisation; and `main`
may use everything. -/
theorem C165_main (init : List Init) (main : List Fn) (hs : ∀ s, .src s ∈ init)
    (ho : ∀ f ∈ ctors init ++ dtors init, f = .other) : ∃ d, run init main = .ok ⟨[], d⟩ := by
  rcases C165_exact init main with ⟨_, h⟩ | ⟨h, _⟩
  · exact h
  · refine absurd ⟨fun _ _ s _ => hs s, fun a g b e => ?_⟩ h
    have hg : ∀ f ∈ g.ctor ++ g.dtor, f = .other := by
      intro f hf
      refine ho f ?_
      rw [e, ctors_append, dtors_append, ctors, dtors]
      rcases List.mem_append.1 hf with hf | hf <;> simp [hf]
    constructor
    · intro f hf s hs
      rw [hg f hf] at hs; cases hs
    · rintro l ⟨f, hf, hl⟩
      rw [hg f (List.mem_append.2 (.inr hf))] at hl; cases hl

/-- C165 is violated: for every function that uses a global object of the library, and every order in which the source file
of this object comes after a global object that uses the function in its constructor or destructor, the behaviour is
undefined. -/
theorem C165_order_violated (f : Fn) (s : Src) (hs : s ∈ needs f) (a b : List Init) (ha : .src s ∉ a) (g : Global)
    (hg : f ∈ g.ctor ∨ f ∈ g.dtor) (main : List Fn) : run (a ++ .user g :: b) main = .ub := by
  rcases C165_exact (a ++ .user g :: b) main with ⟨h, _⟩ | ⟨_, h⟩
  · exact absurd ((h.2 a g b rfl).1 f (List.mem_append.2 hg) s hs) ha
  · exact h

/-- C165 is violated: a destructor that uses a function with an object of its own, which `main` has used but no constructor,
is undefined in every order of the initialisation. -/
theorem C165_exit_violated (f : Fn) (l : Loc) (hl : l ∈ locals f) (init : List Init) (main : List Fn)
    (hm : f ∈ main) (hd : f ∈ dtors init) (hc : ¬ Uses (ctors init) l) : run init main = .ub := by
  rcases C165_exact init main with ⟨h, hr⟩ | ⟨_, h⟩
  · exfalso
    have : ∃ a g b, init = a ++ .user g :: b ∧ f ∈ g.dtor := by
      clear h hc hr
      induction init with
      | nil => cases hd
      | cons x r ih =>
        cases x with
        | src s =>
          obtain ⟨a, g, b, e, h⟩ := ih hd
          exact ⟨.src s :: a, g, b, by rw [e]; rfl, h⟩
        | user g =>
          rcases List.mem_append.1 (show f ∈ g.dtor ++ dtors r from hd) with h | h
          · exact ⟨[], g, r, rfl, h⟩
          · obtain ⟨a, g', b, e, h⟩ := ih h
            exact ⟨.user g :: a, g', b, by rw [e]; rfl, h⟩
    obtain ⟨a, g, b, rfl, hg⟩ := this
    rcases (h.2 a g b rfl).2 l ⟨f, hg, hl⟩ with h | h
    · refine hc ?_
      rw [ctors_append, ctors]
      rcases uses_append.1 h with h | h
      · exact uses_append.2 (.inl h)
      · exact uses_append.2 (.inr (uses_append.2 (.inl h)))
    · exact h (uses_append.2 (.inl (uses_append.2 (.inr ⟨f, hm, hl⟩))))
  · exact h

/-- C165 for a constructor that makes a single call: which source files of the library have to be initialised before. -/
theorem C165_calls (a b : List Init) (f : Fn) (hc : ctors a ++ dtors a = []) (hb : ctors b ++ dtors b = []) :
    (∃ d, run (a ++ .user ⟨[f], []⟩ :: b) [] = .ok ⟨[], d⟩) ↔
      match f with
      | .handle => .src .basic ∈ a
      | .failed => .src .basic ∈ a ∧ .src .ostream ∈ a
      | .print => .src .ostream ∈ a
      | .latin2 => .src .analyze ∈ a
      | .numerals => .src .numeral ∈ a
      | .timing => .src .timer ∈ a
      | .system => .src .spawn ∈ a
      | .resources => .src .resource ∈ a
      | .temp | .locale | .other => True := by
  have hg : Good (a ++ .user ⟨[f], []⟩ :: b) [] ↔ ∀ s ∈ needs f, .src s ∈ a := by
    constructor
    · intro h s hs
      exact (h.2 a _ b rfl).1 f (by simp) s hs
    · intro h
      refine ⟨by simp, fun a1 g b1 e => ?_⟩
      rw [List.append_eq_nil_iff] at hc hb
      have empty : ∀ {c c1 c2 : List Init} {g : Global}, ctors c = [] → dtors c = [] → c = c1 ++ .user g :: c2 →
          g.ctor ++ g.dtor = [] := by
        intro c c1 c2 g h1 h2 e
        rw [e, ctors_append, List.append_eq_nil_iff, ctors, List.append_eq_nil_iff] at h1
        rw [e, dtors_append, List.append_eq_nil_iff, dtors, List.append_eq_nil_iff] at h2
        rw [h1.2.1, h2.2.1]; rfl
      rcases List.append_eq_append_iff.1 e with ⟨c, e1, e2⟩ | ⟨c, e1, e2⟩
      · cases c with
        | nil =>
          simp only [List.nil_append, List.cons.injEq, Init.user.injEq] at e2
          rw [List.append_nil] at e1
          rw [e1, ← e2.1]
          exact ⟨by simpa using h, fun l hl => absurd hl uses_nil⟩
        | cons x c =>
          simp only [List.cons_append, List.cons.injEq] at e2
          have := List.append_eq_nil_iff.1 (empty hb.1 hb.2 e2.2)
          rw [this.1, this.2]
          exact ⟨by simp, fun l hl => absurd hl uses_nil⟩
      · cases c with
        | nil =>
          simp only [List.nil_append, List.cons.injEq, Init.user.injEq] at e2
          rw [List.append_nil] at e1
          rw [← e1, e2.1]
          exact ⟨by simpa using h, fun l hl => absurd hl uses_nil⟩
        | cons x c =>
          simp only [List.cons_append, List.cons.injEq] at e2
          rw [← e2.1] at e1
          have := List.append_eq_nil_iff.1 (empty hc.1 hc.2 e1)
          rw [this.1, this.2]
          exact ⟨by simp, fun l hl => absurd hl uses_nil⟩
  have : (∃ d, run (a ++ .user ⟨[f], []⟩ :: b) [] = .ok ⟨[], d⟩) ↔ Good (a ++ .user ⟨[f], []⟩ :: b) [] := by
    rcases C165_exact (a ++ .user ⟨[f], []⟩ :: b) [] with ⟨h, h'⟩ | ⟨h, h'⟩
    · exact ⟨fun _ => h, fun _ => h'⟩
    · rw [h']
      exact ⟨fun ⟨d, e⟩ => (by cases e), fun e => absurd e h⟩
  rw [this, hg]
  cases f <;> simp [needs]

/-- C165 for a destructor that makes a single call, after `main` has made one: with the library initialised first, this works
unless both ask for the directory of temporary files, or both for the language on Windows. -/
theorem C165_pairs (srcs : List Src) (hs : ∀ s, s ∈ srcs) (f f' : Fn) :
    (∃ d, run (srcs.map .src ++ [.user ⟨[], [f]⟩]) [f'] = .ok ⟨[], d⟩) ↔
      ¬ ((f = .temp ∧ f' = .temp) ∨ (f = .locale ∧ f' = .locale)) := by
  have hc : ∀ l : List Src, ctors (l.map .src) = [] ∧ dtors (l.map .src) = [] := by
    intro l
    induction l with
    | nil => exact ⟨rfl, rfl⟩
    | cons x l ih => exact ih
  have hg : Good (srcs.map .src ++ [.user ⟨[], [f]⟩]) [f'] ↔ ∀ l ∈ locals f, l ∉ locals f' := by
    constructor
    · intro h l hl hl'
      rcases (h.2 _ _ [] rfl).2 l ⟨f, by simp, hl⟩ with h | h
      · rw [(hc srcs).1] at h; exact uses_nil h
      · exact h ⟨f', by simp [ctors, dtors], hl'⟩
    · intro h
      refine ⟨fun _ _ s _ => List.mem_append.2 (.inl (List.mem_map.2 ⟨s, hs s, rfl⟩)), fun a g b e => ?_⟩
      rcases split_concat.1 e with ⟨rfl, rfl, e3⟩ | ⟨b', _, e2⟩
      · cases e3
        refine ⟨fun _ _ s _ => List.mem_map.2 ⟨s, hs s, rfl⟩, fun l hl => .inr fun hl' => ?_⟩
        have h1 : l ∈ locals f := by 
          rcases uses_cons.1 hl with h | h
          · exact h
          · exact absurd h uses_nil
        have h2 : l ∈ locals f' := by
          rcases uses_cons.1 (show Uses (f' :: []) l from hl') with h | h
          · exact h
          · exact absurd h uses_nil
        exact h l h1 h2
      · have : Init.user g ∈ srcs.map Init.src := by rw [e2]; simp
        simp at this
  have : (∃ d, run (srcs.map .src ++ [.user ⟨[], [f]⟩]) [f'] = .ok ⟨[], d⟩) ↔
      Good (srcs.map .src ++ [.user ⟨[], [f]⟩]) [f'] := by
    rcases C165_exact (srcs.map .src ++ [.user ⟨[], [f]⟩]) [f'] with ⟨h, h'⟩ | ⟨h, h'⟩
    · exact ⟨fun _ => h, fun _ => h'⟩
    · rw [h']
      exact ⟨fun ⟨d, e⟩ => (by cases e), fun e => absurd e h⟩
  rw [this, hg]
  cases f <;> cases f' <;> simp [locals]

/-- All source files, in the order of the list. -/
def all : List Src := [.basic, .ostream, .analyze, .numeral, .timer, .spawn, .resource]

/- An object that prints in its constructor and asks for the directory for temporary files in both: it works if the library
comes first, and does not if it comes last; an object that does it in the destructor only does not work if `main` does. -/
example : (run (all.map .src ++ [.user ⟨[.print, .temp], [.temp, .print]⟩]) [.temp]).bind (fun st => .ok st.dead) =
    .ok [.tempDir] := by decide
example : run ([.user ⟨[.print, .temp], [.temp, .print]⟩] ++ all.map .src) [.temp] = .ub := rfl
example : run (all.map .src ++ [.user ⟨[], [.temp]⟩]) [.temp] = .ub := rfl
/- If only destructors use it, the second of them is undefined. -/
example : run (all.map .src ++ [.user ⟨[], [.temp]⟩, .user ⟨[], [.temp]⟩]) [] = .ub := rfl
example : (run (all.map .src ++ [.user ⟨[], []⟩, .user ⟨[], [.temp]⟩]) [.print]).bind (fun st => .ok st.dead) =
    .ok [.tempDir] := by decide
example : ∀ s, s ∈ all := by intro s; cases s <;> decide

end Lolly.GlobalsProps
