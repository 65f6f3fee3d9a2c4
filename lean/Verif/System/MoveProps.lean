import Verif.System.Move
import Verif.System.DirsListProps
import Verif.System.FilesProps
import Verif.System.ProcessProps
import Verif.System.UrlAltProps
import Verif.Strings.ConvertLemmas

set_option autoImplicit false

/-!
# C112, C113: moving and copying files, the current directory, the directory of temporary files
-/

namespace Lolly.MoveProps

open Lolly.Url Lolly.Files Lolly.Dirs Lolly.DirsProps Lolly.Move
open Lolly.FilesProps hiding fs0

/-! ## C112 -/

theorem placeOf_dirUrl (fs : FS) (st : Start) {ns : List Bytes} (h : ∀ x ∈ ns, FileName x) :
    placeOf fs (dirUrl st ns) = .ok (fs.place (dirText st ns)) := by
  rw [placeOf, asLocalPath_dirUrl st h, Res.ok_bind, cname_dirText st h]

/-- Moving one file to another place: if the system does it, the other place has the contents, the file is not at its old
place any more, and nothing else has changed; if it does not, nothing has changed at all. -/
theorem C112_move_partial (fs : FS) (st st' : Start) (ns ms : List Bytes) (h1 : ∀ x ∈ ns, FileName x) (h2 : ∀ x ∈ ms, FileName x)
    (c : Bytes) (hk : fs.node (fs.place (dirText st ns)) = .regular c)
    (hne : fs.place (dirText st ns) ≠ fs.place (dirText st' ms)) :
    (∃ fs', move true fs (dirUrl st ns) (dirUrl st' ms) = .ok fs' ∧ fs'.place = fs.place ∧
      fs'.node (fs.place (dirText st' ms)) = .regular c ∧ fs'.node (fs.place (dirText st ns)) = .absent ∧
      ∀ k, k ≠ fs.place (dirText st ns) → k ≠ fs.place (dirText st' ms) → fs'.node k = fs.node k) ∧
    move false fs (dirUrl st ns) (dirUrl st' ms) = .ok fs := by
  have e : ∀ ok, move ok fs (dirUrl st ns) (dirUrl st' ms) = .ok (sysRename ok fs (dirText st ns) (dirText st' ms)) := by
    intro ok
    rw [move, asLocalPath_dirUrl st h1, Res.ok_bind, asLocalPath_dirUrl st' h2, Res.ok_bind, cname_dirText st h1,
      cname_dirText st' h2]
  refine ⟨⟨_, e true, ?_⟩, by rw [e]; simp [sysRename, hk]⟩
  simp only [sysRename, hk, hne, ne_eq, not_false_eq_true, decide_true, Bool.and_self, if_true, FS.put, if_neg hne.symm,
    if_true, true_and]
  intro k a b
  simp [a, b]

/-- Copying one file to another place: if the system does it, both places have the contents and nothing else has changed;
if a file cannot be opened, nothing has changed at all. -/
theorem C112_copy_partial (fs : FS) (st st' : Start) (ns ms : List Bytes) (h1 : ∀ x ∈ ns, FileName x) (h2 : ∀ x ∈ ms, FileName x)
    (c : Bytes) (hk : fs.node (fs.place (dirText st ns)) = .regular c) (hm : fs.node (fs.place (dirText st' ms)) ≠ .special)
    (hne : fs.place (dirText st ns) ≠ fs.place (dirText st' ms)) (wrote : Nat) (hw : c.length ≤ wrote) :
    (∃ fs', copy true wrote fs (dirUrl st ns) (dirUrl st' ms) = .ok fs' ∧ fs'.place = fs.place ∧
      fs'.node (fs.place (dirText st' ms)) = .regular c ∧ fs'.node (fs.place (dirText st ns)) = .regular c ∧
      ∀ k, k ≠ fs.place (dirText st' ms) → fs'.node k = fs.node k) ∧
    copy false wrote fs (dirUrl st ns) (dirUrl st' ms) = .ok fs := by
  have e : ∀ ok, copy ok wrote fs (dirUrl st ns) (dirUrl st' ms) = .ok (sysCopy ok wrote fs (dirText st ns) (dirText st' ms)) := by
    intro ok
    rw [copy, asLocalPath_dirUrl st h1, Res.ok_bind, asLocalPath_dirUrl st' h2, Res.ok_bind, cname_dirText st h1,
      cname_dirText st' h2]
  refine ⟨⟨_, e true, ?_⟩, by rw [e]; simp [sysCopy, hk]⟩
  have : sysCopy true wrote fs (dirText st ns) (dirText st' ms) = fs.put (fs.place (dirText st' ms)) (.regular c) := by
    simp [sysCopy, hk, hne, hm, List.take_of_length_le hw]
  rw [this]
  refine ⟨rfl, put_node _ _ _, ?_, fun k a => ?_⟩
  · simp [FS.put, hne, hk]
  · simp [FS.put, a]

/-- What was moved or copied is loaded from its new place. `v` has no alternatives in it. -/
theorem C112_load_partial (fs : FS) (st st' : Start) (ns ms : List Bytes) (h1 : ∀ x ∈ ns, FileName x) (h2 : ∀ x ∈ ms, FileName x)
    (c : Bytes) (hk : fs.node (fs.place (dirText st ns)) = .regular c) (hm : fs.node (fs.place (dirText st' ms)) ≠ .special)
    (hne : fs.place (dirText st ns) ≠ fs.place (dirText st' ms)) (hc : c.length ≤ 2 ^ 30) (f : Nat)
    (hv : ∀ fs, findTheFirstExist f fs (dirUrl st' ms) = .ok (dirUrl st' ms)) (r : Reading) (hr : r.size = c.length)
    (hg : Reading.Good r c) (x : Strs) (hx : x.var < x.objs.length) (fatal : Bool) :
    (∃ fs' y, move true fs (dirUrl st ns) (dirUrl st' ms) = .ok fs' ∧
      loadString f r fs' (dirUrl st' ms) x fatal = .ok (y, false) ∧ y.value = .ok c) ∧
    (∃ fs' y, copy true c.length fs (dirUrl st ns) (dirUrl st' ms) = .ok fs' ∧
      loadString f r fs' (dirUrl st' ms) x fatal = .ok (y, false) ∧ y.value = .ok c) := by
  constructor
  · obtain ⟨⟨fs', e, hp, hn, -⟩, -⟩ := C112_move_partial fs st st' ns ms h1 h2 c hk hne
    have ht : Target f fs' (dirUrl st' ms) (fs.place (dirText st' ms)) :=
      ⟨_, hv fs', by rw [placeOf_dirUrl _ _ h2, hp]⟩
    obtain ⟨y, e2, hy⟩ := (C59_load_partial ht hn hc r hr x hx fatal).1 ⟨dirUrl_local st' ms, hg⟩
    exact ⟨fs', y, e, e2, hy⟩
  · obtain ⟨⟨fs', e, hp, hn, -⟩, -⟩ := C112_copy_partial fs st st' ns ms h1 h2 c hk hm hne c.length (Nat.le_refl _)
    have ht : Target f fs' (dirUrl st' ms) (fs.place (dirText st' ms)) :=
      ⟨_, hv fs', by rw [placeOf_dirUrl _ _ h2, hp]⟩
    obtain ⟨y, e2, hy⟩ := (C59_load_partial ht hn hc r hr x hx fatal).1 ⟨dirUrl_local st' ms, hg⟩
    exact ⟨fs', y, e, e2, hy⟩

/-- A file `a`, and nothing at `d/b`. -/
def fs0 : FS := ⟨fun p => if p = b!"a" then 0 else if p = b!"d/b" then 1 else 2, fun i => if i = 0 then .regular (b!"old") else .absent⟩

example : fs0.node (fs0.place (dirText .cwd [b!"a"])) = .regular (b!"old") ∧
    fs0.node (fs0.place (dirText .cwd [b!"d", b!"b"])) ≠ .special ∧
    fs0.place (dirText .cwd [b!"a"]) ≠ fs0.place (dirText .cwd [b!"d", b!"b"]) ∧
    Reading.Good ⟨true, true, 3, some 3, true, []⟩ (b!"old") ∧
    ∀ fs, findTheFirstExist 1 fs (dirUrl .cwd [b!"d", b!"b"]) = .ok (dirUrl .cwd [b!"d", b!"b"]) := by
  refine ⟨by decide, by decide, by decide, ?_, fun fs => ?_⟩
  · simp [Reading.Good]
  · rw [findTheFirstExist]
    have : expand 1 (dirUrl .cwd [b!"d", b!"b"]) = .ok (dirUrl .cwd [b!"d", b!"b"]) := by
      refine UrlAltProps.expand_P 0 _ ?_ (by simp)
      simp [Comp, Elem]
      decide
    rw [this, Res.ok_bind]
    rfl

/-- A url of the web is taken for a file with that name: a local file is moved or copied although the url does not name it. -/
theorem C112_web_violated (fs : FS) (st' : Start) (ms : List Bytes) (h2 : ∀ x ∈ ms, FileName x) (p : Bytes) (hp : webProtocol p = true)
    (hb : p ≠ b!"blank") (ns : List Bytes) (h1 : ∀ x ∈ ns, FileName x) (hh : ∀ x ∈ ns, Name x) (hn : ns ≠ []) (c : Bytes)
    (hk : fs.node (fs.place (p ++ b!"://" ++ text ns)) = .regular c)
    (hne : fs.place (p ++ b!"://" ++ text ns) ≠ fs.place (dirText st' ms)) :
    isLocalAndSingle (R p (ns.map .atom)) = false ∧
    ∃ fs', move true fs (R p (ns.map .atom)) (dirUrl st' ms) = .ok fs' ∧ fs'.node (fs.place (dirText st' ms)) = .regular c ∧
      fs'.node (fs.place (p ++ b!"://" ++ text ns)) = .absent := by
  have hpp : p = b!"http" ∨ p = b!"https" ∨ p = b!"ftp" := by
    simp only [webProtocol, decide_eq_true_eq] at hp
    rcases hp with hp | hp | hp | hp
    · exact .inl hp
    · exact .inr (.inl hp)
    · exact .inr (.inr hp)
    · exact absurd hp hb
  have hf : p ≠ b!"file" ∧ p ≠ b!"default" ∧ 2 ≤ p.length ∧ (∀ c ∈ p, An.isAlpha c || An.isDigit c) ∧ (0 : UInt8) ∉ p := by
    rcases hpp with rfl | rfl | rfl <;> decide
  have e := (UrlParseProps.C48_protocol_partial (fun _ => []) 0 0 p ns hn hh (no_star h1)
    (fun e => (h1 _ (List.mem_of_mem_head? e)).not_up rfl) hf.2.2.2.1 hf.2.2.1 hf.2.1 hb).1
  rw [if_neg hf.1, List.nil_append, ← map_atom h1] at e
  have el : asLocalPath (R p (ns.map .atom)) = .ok (p ++ b!"://" ++ text ns) := by
    rw [asLocalPath, if_neg, e]
    rw [R, if_neg (by simpa using hn)]
    simpa [isRootedS, isRootS] using hf.1
  have ec : cname (p ++ b!"://" ++ text ns) = p ++ b!"://" ++ text ns := by
    apply cname_eq
    have := nul_text h1
    simp [this, hf.2.2.2.2]
  refine ⟨?_, sysRename true fs (p ++ b!"://" ++ text ns) (dirText st' ms), ?_, ?_, ?_⟩
  · rw [R, if_neg (by simpa using hn)]
    rcases hpp with rfl | rfl | rfl <;> rfl
  · rw [move, el, Res.ok_bind, asLocalPath_dirUrl st' h2, Res.ok_bind, ec, cname_dirText st' h2]
  · generalize p ++ b!"://" ++ text ns = q at hk hne
    simp [sysRename, hk, hne, FS.put, hne.symm]
  · generalize p ++ b!"://" ++ text ns = q at hk hne
    simp [sysRename, hk, hne, FS.put]

/-- The file `http://h/x` of the current directory. -/
example : ∃ fs : FS, fs.node (fs.place (b!"http://h/x")) = .regular (b!"text") ∧
    fs.place (b!"http://h/x") ≠ fs.place (dirText .cwd [b!"a"]) :=
  ⟨⟨fun p => p.length, fun i => if i = 10 then .regular (b!"text") else .absent⟩, by decide, by decide⟩

/-- Alternatives are taken for one file with a name like `a:b`: nothing is moved or copied, although `a` is there (and
would be loaded, C66). -/
theorem C112_or_violated (fs : FS) (a b : Bytes) (ha : FileName a) (hb : FileName b) (v : Url) (q : Bytes) (hv : asLocalPath v = .ok q)
    (hk : fs.node (fs.place (a ++ b!":" ++ b)) = .absent) (ok : Bool) (wrote : Nat) :
    move ok fs (.or (.atom a) (.atom b)) v = .ok fs ∧ copy ok wrote fs (.or (.atom a) (.atom b)) v = .ok fs := by
  have el : asLocalPath (.or (.atom a) (.atom b)) = .ok (a ++ b!":" ++ b) := by
    rw [asLocalPath, if_neg (by simp [isRootedS, isRootS])]
    simp [asString, isName, isNameInPath]
  have ec : cname (a ++ b!":" ++ b) = a ++ b!":" ++ b := cname_eq (by simp [ha.no_nul, hb.no_nul])
  constructor
  · rw [move, el, Res.ok_bind, hv, Res.ok_bind, ec, sysRename, hk]
  · rw [copy, el, Res.ok_bind, hv, Res.ok_bind, ec, sysCopy, hk]

example : fs0.node (fs0.place (b!"a:b")) = .absent ∧ fs0.node (fs0.place (b!"a")) = .regular (b!"old") := by decide

/-- No failure is reported, not even if there is no file to move or copy. -/
theorem C112_silent_violated (fs : FS) (st st' : Start) (ns ms : List Bytes) (h1 : ∀ x ∈ ns, FileName x) (h2 : ∀ x ∈ ms, FileName x)
    (hk : fs.node (fs.place (dirText st ns)) = .absent) (ok : Bool) (wrote : Nat) :
    move ok fs (dirUrl st ns) (dirUrl st' ms) = .ok fs ∧ copy ok wrote fs (dirUrl st ns) (dirUrl st' ms) = .ok fs := by
  constructor
  · rw [move, asLocalPath_dirUrl st h1, Res.ok_bind, asLocalPath_dirUrl st' h2, Res.ok_bind, cname_dirText st h1, sysRename, hk]
  · rw [copy, asLocalPath_dirUrl st h1, Res.ok_bind, asLocalPath_dirUrl st' h2, Res.ok_bind, cname_dirText st h1, sysCopy, hk]

/-- `chdir` to a path asks the system for that directory and throws if it refuses; it throws for everything that is no
path of this computer, without asking. -/
theorem C112_chdir {C : Type} (set : C → Bytes → Option C) (cwd : C) :
    (∀ st ns, (∀ x ∈ ns, FileName x) →
      chdir set cwd (dirUrl st ns) = match set cwd (dirText st ns) with
        | some c => .ok c
        | none => .thrown) ∧
    (∀ a b, chdir set cwd (.or a b) = .thrown) ∧
    (∀ p ns, ns ≠ [] → p ≠ b!"default" → p ≠ b!"file" → chdir set cwd (R p (ns.map .atom)) = .thrown) := by
  refine ⟨fun st ns h => ?_, fun a b => rfl, fun p ns hn hd hf => ?_⟩
  · rw [chdir, if_pos (dirUrl_local st ns), asLocalPath_dirUrl st h, Res.ok_bind, cname_dirText st h]
    cases set cwd (dirText st ns) <;> rfl
  · rw [chdir, if_neg]
    rw [R, if_neg (by simpa using hn)]
    simp [isLocalAndSingle, protocol, hd, hf]

/-! ## C113 -/

/-- The names of the directory for the process `pid`. -/
def tempNames (pid : Nat) : List Bytes := [b!"tmp", b!".lolly", Conv.natDec pid]

theorem natDec_plain (n : Nat) : Plain (Conv.natDec n) := by
  obtain ⟨h1, h2, -⟩ := Conv.natDec_spec n
  have hd : ∀ c ∈ Conv.natDec n, 48 ≤ c.toNat ∧ c.toNat ≤ 57 := by
    intro c hc
    have := List.all_eq_true.1 h1 c hc
    simpa [isDig] using this
  have hno : ∀ c : UInt8, ¬ (48 ≤ c.toNat ∧ c.toNat ≤ 57) → c ∉ Conv.natDec n := fun c hc hm => hc (hd c hm)
  have hpre : ∀ (c : UInt8) (l : Bytes), ¬ (48 ≤ c.toNat ∧ c.toNat ≤ 57) → ¬ (c :: l) <+: Conv.natDec n := by
    rintro c l hc ⟨t, e⟩
    exact hno c hc (by rw [← e]; simp)
  refine ⟨⟨h2, ?_, ?_, hno _ (by decide), hno _ (by decide), hno _ (by decide)⟩, hno _ (by decide), ?_, ?_, ?_, ?_⟩
  · intro e; exact hpre (c! '.') [] (by decide) (by rw [e]; exact List.prefix_rfl)
  · intro e; exact hpre (c! '.') (b!".") (by decide) (by rw [e]; exact List.prefix_rfl)
  · intro e; exact hpre (c! '~') [] (by decide) (by rw [e]; exact List.prefix_rfl)
  · intro e
    exact hno (c! '$') (by decide) (List.mem_of_mem_head? e)
  · exact hpre _ _ (by decide)
  · exact hpre _ _ (by decide)

theorem tempNames_file (pid : Nat) : ∀ x ∈ tempNames pid, FileName x := by
  intro x hx
  simp only [tempNames, List.mem_cons, List.not_mem_nil, or_false] at hx
  rcases hx with rfl | rfl | rfl
  · exact ⟨by decide, by decide, by decide, by decide, by decide, by decide⟩
  · exact ⟨by decide, by decide, by decide, by decide, by decide, by decide⟩
  · exact (natDec_plain pid).toFileName

theorem sub_init (env : Env) (f type pid : Nat) :
    urlTempDirSub (general env (f + 1) type) pid Statics.init =
      .ok (dirUrl .top (tempNames pid), ⟨some (dirUrl .top (tempNames pid)), .none⟩) := by
  have htmp : general env (f + 1) type (b!"/tmp") = .ok (dirUrl .top [b!"tmp"]) := by
    have := (UrlParseProps.C48_absolute_partial env f type [b!"tmp"] (by
      intro x hx
      rw [List.mem_singleton.1 hx]
      exact ⟨by decide, by decide, by decide, by decide, by decide⟩) (by decide) (by decide) (by decide)).2
    exact this
  have hl : Plain (b!".lolly") :=
    ⟨⟨by decide, by decide, by decide, by decide, by decide, by decide⟩, by decide, by decide, by decide, by decide, by decide⟩
  have hn := tempNames_file pid
  have m1 : mul (dirUrl .top [b!"tmp"]) (.atom (b!".lolly")) = .ok (dirUrl .top [b!"tmp", b!".lolly"]) :=
    mul_dirUrl .top (ns := [b!"tmp"]) (n := b!".lolly") (fun x hx => hn x (by simp [tempNames] at hx ⊢; rcases hx with rfl | rfl <;> simp))
  have m2 : mul (dirUrl .top [b!"tmp", b!".lolly"]) (.atom (Conv.natDec pid)) = .ok (dirUrl .top (tempNames pid)) :=
    mul_dirUrl .top (ns := [b!"tmp", b!".lolly"]) (n := Conv.natDec pid) hn
  rw [urlTempDirSub, htmp, Res.ok_bind, sys_plain env f type hl, Res.ok_bind, m1, Res.ok_bind]
  simp only [Statics.init]
  rw [ProcessProps.asString_nat, sys_plain env f type (natDec_plain pid), Res.ok_bind, m2, Res.ok_bind]

/-- The first call makes the directory `/tmp/.lolly/pid`, unless something that is no directory is in the way, and gives
its url. Whatever happens to the file system then, and whatever the number of the process, every further call gives the
same url and does not touch the file system. -/
theorem C113_temp_dir_partial (env : Env) (f type g pid : Nat) (hg : 3 < g) (create : Stat → Bytes → Stat) (hc : Creates .top create)
    (w : Stat) (hw : Consistent .top w) (htop : kind w (b!"/") = some .dir)
    (hfree : ∀ p ∈ [b!"/tmp", b!"/tmp/.lolly", b!"/tmp/.lolly/" ++ Conv.natDec pid], kind w p = none ∨ kind w p = some .dir) :
    ∃ w' s, urlTempDir create g (general env (f + 1) type) pid w Statics.init = .ok (dirUrl .top (tempNames pid), w', s) ∧
      kind w' (b!"/tmp/.lolly/" ++ Conv.natDec pid) = some .dir ∧
      (∀ q, q ∉ [b!"/", b!"/tmp", b!"/tmp/.lolly", b!"/tmp/.lolly/" ++ Conv.natDec pid] → kind w' q = kind w q) ∧
      ∀ pid' w'', urlTempDir create g (general env (f + 1) type) pid' w'' s = .ok (dirUrl .top (tempNames pid), w'', s) := by
  have hn := tempNames_file pid
  obtain ⟨w', e, h1, -⟩ := C83_make_dir_partial .top create hc w hw htop (tempNames pid) hn g (by simpa [tempNames] using hg)
  have t0 : dirText .top ((tempNames pid).take 0) = b!"/" := rfl
  have t1 : dirText .top ((tempNames pid).take 1) = b!"/tmp" := rfl
  have t2 : dirText .top ((tempNames pid).take 2) = b!"/tmp/.lolly" := rfl
  have t3 : dirText .top ((tempNames pid).take 3) = b!"/tmp/.lolly/" ++ Conv.natDec pid := rfl
  have hlen : (tempNames pid).length = 3 := rfl
  have cases4 : ∀ i, i ≤ 3 → i = 0 ∨ i = 1 ∨ i = 2 ∨ i = 3 := by omega
  obtain ⟨h2, h3⟩ := h1 (by
    intro i hi
    rcases cases4 i (by omega) with rfl | rfl | rfl | rfl
    · exact .inr htop
    · rw [t1]; exact hfree _ (by simp)
    · rw [t2]; exact hfree _ (by simp)
    · rw [t3]; exact hfree _ (by simp))
  refine ⟨w', ⟨some (dirUrl .top (tempNames pid)), dirUrl .top (tempNames pid)⟩, ?_, ?_, ?_, ?_⟩
  · rw [urlTempDir, if_pos (show Statics.init.u = .none from rfl), sub_init, Res.ok_bind]
    show (makeDir create g w _).bind _ = _
    rw [e]
    rfl
  · rw [← t3]; exact h2 3 (by omega)
  · intro q hq
    apply h3
    intro i hi
    simp only [List.mem_cons, List.not_mem_nil, or_false, not_or] at hq
    rcases cases4 i (by omega) with rfl | rfl | rfl | rfl
    · rw [t0]; exact hq.1
    · rw [t1]; exact hq.2.1
    · rw [t2]; exact hq.2.2.1
    · rw [t3]; exact hq.2.2.2
  · intro pid' w''
    rw [urlTempDir, if_neg]
    intro e
    have := dirUrl_ne_none .top hn
    rw [show dirUrl .top (tempNames pid) = .none from e] at this
    exact absurd this (by decide)

/-- Nothing in the file system but the root. -/
example : ∃ create, Creates .top create ∧ ∃ w : Stat, Consistent .top w ∧ kind w (b!"/") = some .dir ∧
    ∀ p, p ≠ b!"/" → kind w p = none := by
  obtain ⟨create, hc⟩ := creates_exists .top
  refine ⟨create, hc, fun p => if p = b!"/" then some ⟨.dir, 0, 0, 0⟩ else none, ?_, rfl, fun p hp => by simp [kind, hp]⟩
  intro ns n hn hk
  exfalso
  apply hk
  have : dirText .top (ns ++ [n]) ≠ dirText .top [] := fun e => by
    have := dirText_inj .top hn (by simp) e
    simp at this
  simp only [kind]
  rw [if_neg (by exact this)]
  rfl

/-- A directory that was removed after the first call is not made again: the url is not that of a directory. -/
theorem C113_removed_violated (env : Env) (f type g pid : Nat) (create : Stat → Bytes → Stat) (s : Statics)
    (hs : s.u = dirUrl .top (tempNames pid)) (w : Stat) (hw : kind w (b!"/tmp/.lolly/" ++ Conv.natDec pid) = none) :
    ∃ u, urlTempDir create g (general env (f + 1) type) pid w s = .ok (u, w, s) ∧ isDirectory w u = .ok false := by
  have hn := tempNames_file pid
  refine ⟨dirUrl .top (tempNames pid), ?_, ?_⟩
  · rw [urlTempDir, if_neg, hs]
    rw [hs]
    intro e
    have := dirUrl_ne_none .top hn
    rw [e] at this
    exact absurd this (by decide)
  · rw [isDirectory_dirUrl .top w hn, show dirText .top (tempNames pid) = b!"/tmp/.lolly/" ++ Conv.natDec pid from rfl, hw]
    rfl

/-- A process that was forked after the first call gets the directory of its parent and not its own. -/
theorem C113_fork_violated (env : Env) (f type g pid pid' : Nat) (h : pid' ≠ pid) (create : Stat → Bytes → Stat) (s : Statics)
    (hs : s.u = dirUrl .top (tempNames pid)) (w : Stat) :
    ∃ u, urlTempDir create g (general env (f + 1) type) pid' w s = .ok (u, w, s) ∧ u = dirUrl .top (tempNames pid) ∧
      u ≠ dirUrl .top (tempNames pid') := by
  have hn := tempNames_file pid
  refine ⟨dirUrl .top (tempNames pid), ?_, rfl, ?_⟩
  · rw [urlTempDir, if_neg, hs]
    rw [hs]
    intro e
    have := dirUrl_ne_none .top hn
    rw [e] at this
    exact absurd this (by decide)
  · intro e
    apply h
    simp only [dirUrl, tempNames, R, List.map_cons, List.map_nil, P] at e
    rw [if_neg (by simp), if_neg (by simp)] at e
    injection e with _ e
    injection e with _ e
    injection e with _ e
    injection e with e
    exact ProcessProps.natDec_inj e.symm

/-- If something that is no directory is in the way, the url is given all the same, and it is not that of a directory. -/
theorem C113_blocked_violated (env : Env) (f type g pid : Nat) (hg : 3 < g) (create : Stat → Bytes → Stat) (hc : Creates .top create)
    (w : Stat) (hw : Consistent .top w) (htop : kind w (b!"/") = some .dir) (hb : kind w (b!"/tmp/.lolly") = some .file) :
    ∃ w' s, urlTempDir create g (general env (f + 1) type) pid w Statics.init = .ok (dirUrl .top (tempNames pid), w', s) ∧
      isDirectory w' (dirUrl .top (tempNames pid)) = .ok false := by
  have hn := tempNames_file pid
  obtain ⟨w', e, -, h1⟩ := C83_make_dir_partial .top create hc w hw htop (tempNames pid) hn g (by simpa [tempNames] using hg)
  have t2 : dirText .top ((tempNames pid).take 2) = b!"/tmp/.lolly" := rfl
  have h2 := h1 ⟨2, by simp [tempNames], by rw [t2, hb]; simp, by rw [t2, hb]; simp⟩
  refine ⟨w', ⟨some (dirUrl .top (tempNames pid)), dirUrl .top (tempNames pid)⟩, ?_, ?_⟩
  · rw [urlTempDir, if_pos (show Statics.init.u = .none from rfl), sub_init, Res.ok_bind]
    show (makeDir create g w _).bind _ = _
    rw [e]
    rfl
  · rw [isDirectory_dirUrl .top w' hn, h2]
    have : kind w (dirText .top (tempNames pid)) ≠ some .dir := by
      intro hd
      have := hw [b!"tmp", b!".lolly"] (Conv.natDec pid) hn (by
        show kind w (dirText .top (tempNames pid)) ≠ none
        rw [hd]; simp)
      rw [show dirText .top [b!"tmp", b!".lolly"] = b!"/tmp/.lolly" from rfl, hb] at this
      cases this
    simp [this]

end Lolly.MoveProps
