import Verif.Data.FastSearch

/-!
# Model of searchers whose text is changed (Data/String/fast_search.hpp, fast_search.cpp)

A searcher keeps the string that it was made from, not a copy, and a table of codes computed when it was made. Strings are handles:
all variables with the same handle see a change. Which operations of strings change a representation and which make a new one is
as in `System.Results`; here are those that matter for searchers. Reading and changing characters outside of the string is
not defined, as in `Strings`.
-/

set_option autoImplicit false

namespace Lolly.SearcherLife

open FastSearch (Index)

/-- `string_searcher_rep` (fast_search.hpp:20-25): the handle of the text, and the table. -/
structure Rep where
  s : Nat
  a : List Index

/-- The strings in memory, the string variables and the searchers. -/
structure State where
  mem : List Bytes
  vars : List Nat
  srch : List Rep

def init : State := ⟨[], [], []⟩

/-- What a program does. Variables and searchers are numbered in the order in which they are made. -/
inductive Op where
  | make (l : Bytes)
  | share (v : Nat)
  | copy (v : Nat)
  | push (v : Nat) (x : UInt8)
  | put (v i : Nat) (x : UInt8)
  | cut (v m : Nat)
  | index (v : Nat)
  | indexCopy (v : Nat)
  | text (k : Nat)
  deriving DecidableEq

/-- A new string and a variable for it: literals, `a * b`, `s (i, j)` and so on. -/
def make (st : State) (l : Bytes) : State := { st with mem := st.mem ++ [l], vars := st.vars ++ [st.mem.length] }

/-- `string w= v` (classdef.hpp:137-176): the same representation. -/
def share (st : State) (v : Nat) : Res State := do
  let h ← rd st.vars v
  .ok { st with vars := st.vars ++ [h] }

/-- The characters of a variable. -/
def value (st : State) (v : Nat) : Res Bytes := do
  let h ← rd st.vars v
  rd st.mem h

/-- `string w= copy (v)` (string.cpp:130-137). -/
def copy (st : State) (v : Nat) : Res State := do
  let l ← value st v
  .ok (make st l)

/-- A change of the representation of a variable. -/
def change (st : State) (v : Nat) (f : Bytes → Res Bytes) : Res State := do
  let h ← rd st.vars v
  let l ← rd st.mem h
  let l ← f l
  .ok { st with mem := st.mem.set h l }

/-- `v << x` (string.cpp:139-144). -/
def push (st : State) (v : Nat) (x : UInt8) : Res State := change st v fun l => .ok (l ++ [x])

/-- `v[i]= x` (string.hpp:48). -/
def put (st : State) (v i : Nat) (x : UInt8) : Res State := change st v fun l => wr l i x

/-- `v->resize (m)` with a length that is not larger (string.cpp:38-54). -/
def cut (st : State) (v m : Nat) : Res State := change st v fun l => if m ≤ l.length then .ok (l.take m) else .ub

/-- A searcher for the string with handle `h` (fast_search.cpp:46-68): the member `s` is initialised with the argument, so it is the
same handle. -/
def attach (st : State) (h : Nat) : Res State := do
  let l ← rd st.mem h
  let S ← FastSearch.build l
  .ok { st with srch := st.srch ++ [⟨h, S.a⟩] }

/-- `string_searcher (v)` (fast_search.hpp:38). -/
def index (st : State) (v : Nat) : Res State := do
  let h ← rd st.vars v
  attach st h

/-- `string_searcher (copy (v))`: the argument is a new string, which no variable has. -/
def indexCopy (st : State) (v : Nat) : Res State := do
  let l ← value st v
  attach { st with mem := st.mem ++ [l] } st.mem.length

/-- `string w= S->get_string ()` (fast_search.cpp:70-73): the handle of the text. -/
def text (st : State) (k : Nat) : Res State := do
  let r ← rd st.srch k
  .ok { st with vars := st.vars ++ [r.s] }

def step (st : State) : Op → Res State
  | .make l => .ok (make st l)
  | .share v => share st v
  | .copy v => copy st v
  | .push v x => push st v x
  | .put v i x => put st v i x
  | .cut v m => cut st v m
  | .index v => index st v
  | .indexCopy v => indexCopy st v
  | .text k => text st k

def run : State → List Op → Res State
  | st, [] => .ok st
  | st, op :: ops => do
    let st ← step st op
    run st ops

/-- The searcher with its text as it is now. -/
def now (st : State) (k : Nat) : Res FastSearch.Searcher := do
  let r ← rd st.srch k
  let l ← rd st.mem r.s
  .ok ⟨l, r.a⟩

/-- The characters that `get_string ()` shows (fast_search.cpp:70-73). -/
def shown (st : State) (k : Nat) : Res Bytes := do
  let S ← now st k
  .ok S.s

/-- `S->search_all (what)` (fast_search.cpp:107-118). -/
def searchAll (st : State) (k : Nat) (what : Bytes) : Res (List Nat) := do
  let S ← now st k
  FastSearch.searchAll S what

/-- `S->search_next (what, pos)` (fast_search.cpp:97-105). -/
def searchNext (st : State) (k : Nat) (what : Bytes) (pos : Int) : Res Int := do
  let S ← now st k
  FastSearch.searchNext S what pos

end Lolly.SearcherLife
