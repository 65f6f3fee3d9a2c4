import Verif.Containers.HashMap

/-!
# Model of `hashtree<K,V>` (Kernel/Containers/hashtree.hpp, hashtree.ipp) and of named resources
(Kernel/Abstractions/resource.hpp)

Nodes of a hashtree live in a heap (a list indexed by node number) because handles to nodes are
shared; in trees that are grown by `operator()` only, node 0 is the root. Simplification: reference counts are not
modelled here: nodes that no handle refers to stay in the heap, where nothing can be seen of them. `dv` is the value of the default constructor `V()` (hashtree.hpp:29, `label ()`).
-/

namespace Lolly

variable {K V : Type} [DecidableEq K] (hash : K → BitVec 32)

/-- `hashtree_rep<K,V>` (hashtree.hpp:23-30). Children are node numbers; the default value of the map is
the NULL handle, here `0` (no child is ever the root). -/
structure HTNode (K V : Type) where
  children : HashMap K Nat
  label : V

abbrev HTHeap (K V : Type) := List (HTNode K V)

namespace HashTree

/-- `hashtree (V val)` / `hashtree ()` (hashtree.hpp:103-106): a fresh node. -/
def newNode (v : V) : HTNode K V := { children := HashMap.new 0, label := v }

/-- `operator()` (hashtree.ipp:109-115) on node `n`, with `add_new_child` and `add_child`
(hashtree.ipp:51-63): the child handle and the new heap. -/
def child (dv : V) (hp : HTHeap K V) (n : Nat) (k : K) : Res (Nat × HTHeap K V) := do
  let nd ← rd hp n
  let c ← nd.children.contains hash k
  if c then do
    let m ← nd.children.get hash k
    .ok (m, hp)
  else do
    let m := hp.length
    let ch ← nd.children.set hash k m
    let hp ← wr (hp ++ [newNode dv]) n { nd with children := ch }
    let nd ← rd hp n
    let m ← nd.children.get hash k
    .ok (m, hp)

/-- `t (k1) (k2) ... (kn)`. -/
def walk (dv : V) : HTHeap K V → Nat → List K → Res (Nat × HTHeap K V)
  | hp, n, [] => .ok (n, hp)
  | hp, n, k :: ks => do
    let (m, hp) ← child hash dv hp n k
    walk dv hp m ks

/-- `t (k1) ... (kn)->set_label (v)` (hashtree.ipp:65-69). -/
def setLabel (dv : V) (hp : HTHeap K V) (p : List K) (v : V) : Res (HTHeap K V) := do
  let (n, hp) ← walk hash dv hp 0 p
  let nd ← rd hp n
  wr hp n { nd with label := v }

/-- `t (k1) ... (kn)->get_label ()` (hashtree.ipp:71-75). -/
def getLabel (dv : V) (hp : HTHeap K V) (p : List K) : Res (V × HTHeap K V) := do
  let (n, hp) ← walk hash dv hp 0 p
  let nd ← rd hp n
  .ok (nd.label, hp)

/-- `t->add_child (k, u)` (hashtree.ipp:51-56) for nodes `n` and `m`; `u` has a node already, so that `realize` does
nothing. -/
def addChild (hp : HTHeap K V) (n : Nat) (k : K) (m : Nat) : Res (HTHeap K V) := do
  let nd ← rd hp n
  let ch ← nd.children.set hash k m
  wr hp n { nd with children := ch }

/-- `t->contains (k)` (hashtree.ipp:45-49). -/
def hasChild (hp : HTHeap K V) (n : Nat) (k : K) : Res Bool := do
  let nd ← rd hp n
  nd.children.contains hash k

/-- `N (t)` (hashtree.ipp:127-131). -/
def count (hp : HTHeap K V) (n : Nat) : Res Int := do
  let nd ← rd hp n
  .ok nd.children.N

/-- What a program with variables for nodes does: the variables hold handles, a new one is added at the end. -/
inductive Op (K V : Type)
  /-- `hashtree<K,V> t (v)` -/
  | fresh (v : V)
  /-- `hashtree<K,V> t= x (k)` -/
  | visit (x : Nat) (k : K)
  /-- `x->add_child (k, y)` -/
  | link (x : Nat) (k : K) (y : Nat)
  /-- `x->set_label (v)` -/
  | label (x : Nat) (v : V)

/-- The variables and the heap. -/
structure Prog (K V : Type) where
  vars : List Nat
  heap : HTHeap K V

/-- One operation. -/
def Prog.step (dv : V) (st : Prog K V) : Op K V → Res (Prog K V)
  | .fresh v => .ok ⟨st.vars ++ [st.heap.length], st.heap ++ [newNode v]⟩
  | .visit x k => do
    let n ← rd st.vars x
    let (m, hp) ← child hash dv st.heap n k
    .ok ⟨st.vars ++ [m], hp⟩
  | .link x k y => do
    let n ← rd st.vars x
    let m ← rd st.vars y
    let hp ← addChild hash st.heap n k m
    .ok ⟨st.vars, hp⟩
  | .label x v => do
    let n ← rd st.vars x
    let nd ← rd st.heap n
    let hp ← wr st.heap n { nd with label := v }
    .ok ⟨st.vars, hp⟩

/-- Operations in order. -/
def Prog.run (dv : V) (st : Prog K V) : List (Op K V) → Res (Prog K V)
  | [] => .ok st
  | o :: os => do
    let st ← st.step hash dv o
    Prog.run dv st os

end HashTree

/-- State of the resources of one class (resource.hpp:23-43): the table `instances` from names to
addresses (NULL = 0), and the name stored in each live object. -/
structure Resources (K : Type) where
  instances : HashMap K Nat
  names : Nat → Option K

namespace Resources

/-- Before any resource is created (resource.hpp:37-38). -/
def empty : Resources K := { instances := HashMap.new 0, names := fun _ => none }

/-- Constructor `rep (res_name)` of an object at address `p` (resource.hpp:25-27). -/
def create (r : Resources K) (s : K) (p : Nat) : Res (Resources K) := do
  let i ← r.instances.set hash s p
  .ok { instances := i, names := fun q => if q = p then some s else r.names q }

/-- Destructor of the object at address `p` (resource.hpp:28). -/
def destroy (r : Resources K) (p : Nat) : Res (Resources K) :=
  match r.names p with
  | none => .ub
  | some s => do
    let i ← r.instances.reset hash s
    .ok { instances := i, names := fun q => if q = p then none else r.names q }

/-- `PTR (string s)` (resource.hpp:49): the address found, 0 for nil. -/
def lookup (r : Resources K) (s : K) : Res Nat := r.instances.get hash s

/-- `make (T, s, im)` (resource.hpp:62), where evaluating `im` creates a resource named `s` at
address `p`: the resource returned and the new state. -/
def make (r : Resources K) (s : K) (p : Nat) : Res (Nat × Resources K) := do
  let c ← r.instances.contains hash s
  if c then do
    let q ← r.lookup hash s
    .ok (q, r)
  else do
    let r ← r.create hash s p
    .ok (p, r)

end Resources
end Lolly
