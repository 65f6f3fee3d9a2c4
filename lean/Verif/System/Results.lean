import Verif.System.Url

set_option autoImplicit false

/-!
# Which strings functions return

Strings are handles of representations that are changed in place by `<<` (classdef.hpp:137-176, string.cpp:139-153). A function
that returns a string returns a new one, or the handle of its argument or of a label in the url it was asked about. The labels of
urls are strings in the same memory (lolly_tree.hpp:31, 149). What the functions return as text is modelled in `Strings` and in
`System.Url`; here is modelled which representation it is.

Not modelled: the labels `"concat"`, `"root"` and so on of the tuples (`url::label` returns them as they are), destruction.
A string that no variable or url has any more stays in memory.
-/

namespace Lolly.Results

open Url (Url)

/-- The strings in memory. -/
abbrev Mem := List Bytes

/-- A string: that with handle `h`, or a new one. -/
inductive Lab where
  | old (h : Nat)
  | new (s : Bytes)
  deriving DecidableEq

/-- The trees behind urls, see `Url.Url`, with labels in `L`. -/
inductive HUrl (L : Type) where
  | atom (l : L)
  | none
  | root (p : L)
  | root3 (p c : L)
  | concat (a b : HUrl L)
  | or (a b : HUrl L)
  | wild0
  | wild1 (l : L)
  deriving DecidableEq

/-- Number of nodes. -/
def HUrl.size {L : Type} : HUrl L → Nat
  | .concat a b => a.size + b.size + 1
  | .or a b => a.size + b.size + 1
  | _ => 1

def HUrl.map {L L' : Type} (f : L → L') : HUrl L → HUrl L'
  | .atom l => .atom (f l)
  | .none => .none
  | .root p => .root (f p)
  | .root3 p c => .root3 (f p) (f c)
  | .concat a b => .concat (a.map f) (b.map f)
  | .or a b => .or (a.map f) (b.map f)
  | .wild0 => .wild0
  | .wild1 l => .wild1 (f l)

/-- The labels, from left to right. -/
def HUrl.labels {L : Type} : HUrl L → List L
  | .atom l => [l]
  | .none => []
  | .root p => [p]
  | .root3 p c => [p, c]
  | .concat a b => a.labels ++ b.labels
  | .or a b => a.labels ++ b.labels
  | .wild0 => []
  | .wild1 l => [l]

/-- The characters of a string. Handles are never dangling, since they are counted (C55). -/
def cont (m : Mem) : Lab → Bytes
  | .old h => m[h]?.getD []
  | .new s => s

/-- The url that is seen. -/
def val (m : Mem) : HUrl Lab → Url
  | .atom l => .atom (cont m l)
  | .none => .none
  | .root p => .root (cont m p)
  | .root3 p c => .root3 (cont m p) (cont m c)
  | .concat a b => .concat (val m a) (val m b)
  | .or a b => .or (val m a) (val m b)
  | .wild0 => .wild0
  | .wild1 l => .wild1 (cont m l)

/-! ## Functions of strings -/

/-- `upcase_first` (analyze.cpp:114-118). -/
def upcaseFirst (m : Mem) (s : Lab) : Res Lab :=
  let t := cont m s
  if t.length = 0 then .ok s
  else do
    let c ← rd t 0
    if An.isIsoLocase c then .ok (.new ([UInt8.ofNat (c.toNat - 32)] ++ An.sub t 1 t.length)) else .ok s

/-- `locase_first` (analyze.cpp:120-124). -/
def locaseFirst (m : Mem) (s : Lab) : Res Lab :=
  let t := cont m s
  if t.length = 0 then .ok s
  else do
    let c ← rd t 0
    if An.isIsoUpcase c then .ok (.new ([UInt8.ofNat (c.toNat + 32)] ++ An.sub t 1 t.length)) else .ok s

/-- `remove_prefix` (analyze.cpp:167-172). -/
def removePrefix (m : Mem) (s p : Lab) : Res Lab :=
  let t := cont m s
  let q := cont m p
  if t.length = 0 ∨ q.length = 0 then .ok s
  else do
    let b ← An.starts t q
    .ok (if b then .new (An.sub t q.length t.length) else s)

/-- `remove_suffix` (analyze.cpp:174-179). -/
def removeSuffix (m : Mem) (s p : Lab) : Lab :=
  let t := cont m s
  let q := cont m p
  if t.length = 0 ∨ q.length = 0 then s
  else if An.ends t q then .new (An.sub t 0 (t.length - q.length)) else s

/-- `raw_unquote` (analyze.cpp:425-430). -/
def rawUnquote (m : Mem) (s : Lab) : Res Lab := do
  let q ← An.isQuoted (cont m s)
  .ok (if q then .new (An.sub (cont m s) 1 ((cont m s).length - 1)) else s)

/-! ## Functions of urls -/

/-- `u1 | u2` (url.cpp:648-656). -/
def alt (m : Mem) (u1 u2 : HUrl Lab) : HUrl Lab :=
  if val m u1 = .none then u2
  else if val m u2 = .none then u1
  else
    match u1 with
    | .or a b => alt m a (alt m b u2)
    | _ =>
      if val m u1 = val m u2 then u2
      else
        match u2 with
        | .or c _ => if val m u1 = val m c then u2 else .or u1 u2
        | _ => .or u1 u2
termination_by u1.size
decreasing_by
  all_goals simp only [HUrl.size]
  all_goals omega

/-- `tail (u)` (url.cpp:369-378). -/
def tail (m : Mem) : HUrl Lab → HUrl Lab
  | .concat a b => if Url.isRootWeb (val m a) && Url.isAtomic (val m b) then .atom (.new (b!".")) else tail m b
  | .or a b => alt m (tail m a) (tail m b)
  | .root _ => .atom (.new (b!"."))
  | .root3 _ _ => .atom (.new (b!"."))
  | u => u

/-- `as_string (u)` (url.cpp:728-803): a url that is a single name, and a wildcard, give their label (733, 800); all other cases make
a new string, see `Url.asString`. -/
def asString (m : Mem) : HUrl Lab → Lab
  | .atom l => l
  | .wild1 l => l
  | u => .new (Url.asString (val m u))

/-- `url::protocol` (url.cpp:65-88), `get_root` (url.cpp:476-479). -/
def protocol (m : Mem) : HUrl Lab → Lab
  | .root p => p
  | .root3 p _ => p
  | .concat a _ => protocol m a
  | .or a b =>
    if cont m (protocol m a) = [] then .new []
    else if cont m (protocol m a) = cont m (protocol m b) then protocol m a
    else .new []
  | _ => .new (b!"default")

/-- `suffix (u, use_locase)` (url.cpp:380-398): all results are new strings. -/
def suffix (m : Mem) (u : HUrl Lab) (locase : Bool) : Res Lab := do
  let s ← Url.suffix (val m u) locase
  .ok (.new s)

/-- `if (found != -1) s= s (0, found)` (url.cpp:409). -/
def cutAt (m : Mem) (s : Lab) (found : Int) : Lab := if found ≠ -1 then .new (An.sub (cont m s) 0 found) else s

/-- `basename (u, suf)` (url.cpp:405-411). -/
def basenameS (m : Mem) (u : HUrl Lab) (suf : Lab) : Res Lab := do
  let s := asString m (tail m u)
  let found ← An.indexOf (cont m s) (c! '?')
  .ok (removeSuffix m (cutAt m s found) suf)

/-- `basename (u)` (url.cpp:413-418). -/
def basename (m : Mem) (u : HUrl Lab) : Res Lab := do
  let s ← suffix m u false
  basenameS m u (if (cont m s).length ≠ 0 then .new ((b!".") ++ cont m s) else s)

/-! ## Programs -/

structure State where
  mem : Mem
  strs : Nat → Option Nat
  urls : Nat → Option (HUrl Nat)

/-- A function that is called, with the variables it gets. `make` is any function that makes a new string, such as `copy`, `upcase_all`,
`a * b`, `s (i, j)`, and literals. -/
inductive Fn where
  | make (s : Bytes)
  | same (v : Nat)
  | upcaseFirst (v : Nat)
  | locaseFirst (v : Nat)
  | removePrefix (v p : Nat)
  | removeSuffix (v p : Nat)
  | rawUnquote (v : Nat)
  | asString (u : Nat)
  | protocol (u : Nat)
  | suffix (u : Nat) (locase : Bool)
  | basenameS (u p : Nat)
  | basename (u : Nat)

/-- Where the label of a url comes from: the `i`-th label of another one, a string variable (`url_wildcard (v)`, `url_root (v)`,
`url_tree (v)`), or it is new (as in `url (name)`, where it is a part `name (i, j)`). -/
inductive Ref where
  | part (u i : Nat)
  | str (v : Nat)
  | lit (s : Bytes)

/-- `v= f (...)`; `v << x`; and `u= ...` for any url that is made of parts of others, of given strings and of new ones, as do
`u * v`, `u | v`, `head`, `tail`, `reroot`, and the constructors. -/
inductive Stmt where
  | call (v : Nat) (f : Fn)
  | append (v : Nat) (x : UInt8)
  | url (u : Nat) (t : HUrl Ref)

def State.str (st : State) (v : Nat) : Res Lab := do
  let h ← .ofOption (st.strs v)
  .ok (.old h)

def State.url (st : State) (u : Nat) : Res (HUrl Lab) := do
  let t ← .ofOption (st.urls u)
  .ok (t.map .old)

/-- What a function returns. -/
def State.eval (st : State) : Fn → Res Lab
  | .make s => .ok (.new s)
  | .same v => st.str v
  | .upcaseFirst v => do
    let s ← st.str v
    Results.upcaseFirst st.mem s
  | .locaseFirst v => do
    let s ← st.str v
    Results.locaseFirst st.mem s
  | .removePrefix v p => do
    let s ← st.str v
    let q ← st.str p
    Results.removePrefix st.mem s q
  | .removeSuffix v p => do
    let s ← st.str v
    let q ← st.str p
    .ok (Results.removeSuffix st.mem s q)
  | .rawUnquote v => do
    let s ← st.str v
    Results.rawUnquote st.mem s
  | .asString u => do
    let t ← st.url u
    .ok (Results.asString st.mem t)
  | .protocol u => do
    let t ← st.url u
    .ok (Results.protocol st.mem t)
  | .suffix u locase => do
    let t ← st.url u
    Results.suffix st.mem t locase
  | .basenameS u p => do
    let t ← st.url u
    let q ← st.str p
    Results.basenameS st.mem t q
  | .basename u => do
    let t ← st.url u
    Results.basename st.mem t

/-- A string as handle; new strings are put into memory. -/
def intern (m : Mem) : Lab → Mem × Nat
  | .old h => (m, h)
  | .new s => (m ++ [s], m.length)

/-- The label that is meant. -/
def State.ref (st : State) : Ref → Res Lab
  | .part u i => do
    let t ← .ofOption (st.urls u)
    let h ← rd t.labels i
    .ok (.old h)
  | .str v => st.str v
  | .lit s => .ok (.new s)

/-- All labels of a new url. -/
def State.build (st : State) (m : Mem) : HUrl Ref → Res (Mem × HUrl Nat)
  | .atom l => do
    let l ← st.ref l
    .ok ((intern m l).1, .atom (intern m l).2)
  | .none => .ok (m, .none)
  | .root p => do
    let l ← st.ref p
    .ok ((intern m l).1, .root (intern m l).2)
  | .root3 p c => do
    let l ← st.ref p
    let k ← st.ref c
    .ok ((intern (intern m l).1 k).1, .root3 (intern m l).2 (intern (intern m l).1 k).2)
  | .concat a b => do
    let (m, a) ← st.build m a
    let (m, b) ← st.build m b
    .ok (m, .concat a b)
  | .or a b => do
    let (m, a) ← st.build m a
    let (m, b) ← st.build m b
    .ok (m, .or a b)
  | .wild0 => .ok (m, .wild0)
  | .wild1 l => do
    let l ← st.ref l
    .ok ((intern m l).1, .wild1 (intern m l).2)

def step (st : State) : Stmt → Res State
  | .call v f => do
    let l ← st.eval f
    let p := intern st.mem l
    .ok { st with mem := p.1, strs := fun w => if w = v then some p.2 else st.strs w }
  | .append v x => do -- v << x (string.cpp:139-144)
    let h ← .ofOption (st.strs v)
    let s ← rd st.mem h
    let m ← wr st.mem h (s ++ [x])
    .ok { st with mem := m }
  | .url u t => do
    let (m, t) ← st.build st.mem t
    .ok { st with mem := m, urls := fun w => if w = u then some t else st.urls w }

def run : State → List Stmt → Res State
  | st, [] => .ok st
  | st, s :: l => do
    let st ← step st s
    run st l

/-- The start: nothing. -/
def start : State := ⟨[], fun _ => none, fun _ => none⟩

end Lolly.Results
