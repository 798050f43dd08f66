import Verif.Props.BindVersion
import Verif.Props.Bundle
import Verif.Props.Search
import Verif.Props.Serialization
/-!
# C179, C180, C182, C183: packages of system tools
-/
namespace Rez.Props
open Rez Rez.Files Rez.Bind Rez.Bind.Spec Rez.Spec.Files

namespace BindLemmas
open FilesLemmas

theorem only_refl (fs : FS) (d : Path) : Only fs fs d := fun _ _ => Or.inl rfl

theorem only_trans {a b c : FS} {d : Path} (h1 : Only a b d) (h2 : Only b c d) : Only a c d := by
  intro q hq
  rcases h1 q hq with e1 | ⟨p1, n1, s1⟩
  · rcases h2 q hq with e2 | ⟨p2, n2, s2⟩
    · exact Or.inl (e2.trans e1)
    · exact Or.inr ⟨p2, e1 ▸ n2, s2⟩
  · rcases h2 q hq with e2 | ⟨-, n2, -⟩
    · exact Or.inr ⟨p1, n1, e2.trans s1⟩
    · rw [s1] at n2; cases n2

/-- A directory on the way, or the file. -/
def Mine (d : Path) (s : Step) : Prop :=
  (∃ q, q <+: d ∧ s = .mkdir q) ∨ s = .create (d ++ [c!"package.py"]) ∨ ∃ e, s = .write (d ++ [c!"package.py"]) e

theorem mine_only {d : Path} : ∀ (l : List Step) (fs : FS), (∀ s ∈ l, Mine d s) → Only fs (Files.run fs l) d := by
  intro l
  induction l with
  | nil => intro fs _; exact only_refl fs d
  | cons s l ih =>
    intro fs h
    refine only_trans ?_ (ih (s.apply fs) fun x hx => h x (List.mem_cons_of_mem _ hx))
    intro q hq
    rcases h s List.mem_cons_self with ⟨p, hp, rfl⟩ | rfl | ⟨e, rfl⟩
    · simp only [Step.apply]
      by_cases hs : (mget fs p).isSome = true
      · rw [if_pos hs]; exact Or.inl rfl
      · rw [if_neg hs, mget_mset]
        by_cases hqp : q = p
        · subst hqp
          rw [if_pos rfl]
          exact Or.inr ⟨hp, by simpa using hs, rfl⟩
        · rw [if_neg hqp]; exact Or.inl rfl
    · exact Or.inl (by simp only [Step.apply, mget_mset, if_neg hq])
    · exact Or.inl (by simp only [Step.apply, mget_mset, if_neg hq])

/-- The directories of a path, and a file there. -/
def put (fs : FS) (d : Path) (c : Str) : List Step × Bundle.End :=
  Bundle.next fs (Bundle.makeAll fs d) fun fs => Bundle.writeFile fs (d ++ [c!"package.py"]) c

theorem makeAll_mine {fs : FS} {p d : Path} (h : p <+: d) : ∀ s ∈ (Bundle.makeAll fs p).1, Mine d s := by
  unfold Bundle.makeAll
  split
  · intro s hs; cases hs
  · intro s hs
    obtain ⟨q, hq, rfl⟩ := List.mem_map.1 hs
    exact Or.inl ⟨q, ((List.mem_inits q p).1 hq).trans h, rfl⟩

theorem writeFile_mine (fs : FS) (d : Path) (c : Str) : ∀ s ∈ (Bundle.writeFile fs (d ++ [c!"package.py"]) c).1, Mine d s := by
  unfold Bundle.writeFile
  split
  · intro s hs; cases hs
  · intro s hs
    simp only [List.mem_cons, List.not_mem_nil, or_false] at hs
    rcases hs with rfl | rfl
    · exact Or.inr (Or.inl rfl)
    · exact Or.inr (Or.inr ⟨_, rfl⟩)

theorem next_mine {d : Path} {fs : FS} {a : List Step × Bundle.End} {k : FS → List Step × Bundle.End} (h1 : ∀ s ∈ a.1, Mine d s)
    (h2 : ∀ fs, ∀ s ∈ (k fs).1, Mine d s) : ∀ s ∈ (Bundle.next fs a k).1, Mine d s := by
  rcases a with ⟨s1, e⟩
  unfold Bundle.next
  intro s hs
  cases e with
  | done =>
    rcases List.mem_append.1 hs with h | h
    · exact h1 s h
    · exact h2 _ s h
  | failed => exact h1 s hs
  | unfinished => exact h1 s hs

theorem put_mine (fs : FS) (d : Path) (c : Str) : ∀ s ∈ (put fs d c).1, Mine d s :=
  next_mine (makeAll_mine List.prefix_rfl) fun fs => writeFile_mine fs d c

theorem put_file {fs : FS} {d : Path} {c : Str} {st : List Step} (h : put fs d c = (st, .done)) :
    mget (Files.run fs st) (d ++ [c!"package.py"]) = some (.file c) := by
  obtain ⟨s1, s2, -, h2, rfl⟩ := BundleLemmas.next_done h
  rw [run_append, BundleLemmas.writeFile_done h2, if_pos rfl]

theorem put_dirs {fs : FS} {d : Path} {c : Str} {st : List Step} (h : put fs d c = (st, .done)) (q : Path) (hq : q <+: d) :
    mget (Files.run fs st) q = some .dir := by
  obtain ⟨s1, s2, h1, h2, rfl⟩ := BundleLemmas.next_done h
  rw [run_append, BundleLemmas.writeFile_done h2, if_neg]
  · unfold Bundle.makeAll at h1
    split at h1
    · cases h1
    · rename_i hb
      simp only [Prod.mk.injEq, and_true] at h1
      rw [← h1, mkdirAll_get, if_pos hq]
      have : ∀ p ∈ d.inits, ¬ ((mget fs p).any fun e => e != .dir) = true := by
        rw [Bool.not_eq_true] at hb
        exact List.any_eq_false.1 hb
      have := this q ((List.mem_inits q d).2 hq)
      cases hm : mget fs q with
      | none => rfl
      | some e => rw [hm] at this; simpa using this
  · rintro rfl
    have := hq.length_le
    simp only [List.length_append, List.length_cons, List.length_nil] at this
    omega

/-- A file can be put: nothing but directories on the way, and no directory in its place. -/
theorem put_done {fs : FS} {d : Path} {c : Str} (h1 : ∀ q, q <+: d → mget fs q = none ∨ mget fs q = some .dir)
    (h2 : mget fs (d ++ [c!"package.py"]) ≠ some .dir) : (put fs d c).2 = .done := by
  have hb : blocked fs d = false := by
    unfold blocked
    rw [List.any_eq_false]
    intro q hq
    rcases h1 q ((List.mem_inits q d).1 hq) with h | h <;> simp [h]
  unfold put Bundle.next Bundle.makeAll
  rw [hb]
  simp only [Bool.false_eq_true, if_false]
  unfold Bundle.writeFile
  rw [if_neg]
  rw [mkdirAll_get, if_neg]
  · exact h2
  · intro h
    have := h.length_le
    simp only [List.length_append, List.length_cons, List.length_nil] at this
    omega

end BindLemmas
open BindLemmas

/-! ## C179: what a bind writes -/

/-- **C179**: a tool that is bound: the package is called as was asked for, its version is the one given or found, there was
nothing in its place unless that was to be overwritten, the file says what it should say, and nothing else has changed but
that missing directories on the way were made. -/
theorem C179_bound (w : World) (home : Path) (tool : Str) (o : Bind.Options) (st : List Step) (b : Bind.Bound)
    (h : bind w home tool o = (st, .ok b)) (ht : Component tool) (hv : Component b.version) :
    b.name = tool ∧ version w tool o = some b.version ∧ b.path = o.path.getD home ++ [tool, b.version] ∧
    b.exe = (if o.search then w.which tool else none) ∧
    (mget w.fs b.path = none ∨ o.force = true) ∧
    mget (Files.run w.fs st) (b.path ++ [c!"package.py"]) = some (.file (packagePy tool b.version b.exe o.extra)) ∧
    (∀ q, q <+: b.path → mget (Files.run w.fs st) q = some .dir) ∧ Only w.fs (Files.run w.fs st) b.path := by
  unfold Bind.bind at h
  dsimp only at h
  cases hver : version w tool o with
  | none => rw [hver] at h; cases h
  | some v =>
    rw [hver] at h
    dsimp only at h
    generalize hexe : (if o.search = true then w.which tool else none) = exe at h ⊢
    split at h
    · cases h
    · rename_i hex
      simp only [Prod.mk.injEq] at h
      obtain ⟨h1, h2⟩ := h
      split at h2
      · rename_i hd
        simp only [Except.ok.injEq] at h2
        subst h2
        have hv : Component v := hv
        rw [FilesLemmas.join_two _ ht hv] at h1 hd hex ⊢
        have hp : put w.fs (o.path.getD home ++ [tool, v]) (packagePy tool v exe o.extra) = (st, .done) :=
          Prod.ext h1 hd
        refine ⟨rfl, rfl, rfl, rfl, ?_, put_file hp, put_dirs hp, ?_⟩
        · simp only [Bool.and_eq_true, Bool.not_eq_true', not_and, Bool.not_eq_false] at hex
          cases hm : mget w.fs (o.path.getD home ++ [tool, v]) with
          | none => exact Or.inl rfl
          | some e => exact Or.inr (hex (by rw [hm]; rfl))
        · have := mine_only st w.fs (fun s hs => put_mine w.fs _ _ s (by rw [hp]; exact hs))
          exact this
      · cases h2

/-- **C179**: it can be bound whenever a version is given or found, only directories are on the way, and nothing is there, or
it is to be overwritten and no directory is in the place of the file. -/
theorem C179_succeeds (w : World) (home : Path) (tool v : Str) (o : Bind.Options) (hv : version w tool o = some v)
    (hd : ∀ q, q <+: join (join (o.path.getD home) tool) v → mget w.fs q = none ∨ mget w.fs q = some .dir)
    (hf : mget w.fs (join (join (o.path.getD home) tool) v ++ [c!"package.py"]) ≠ some .dir)
    (hn : mget w.fs (join (join (o.path.getD home) tool) v) = none ∨ o.force = true) :
    ∃ st b, bind w home tool o = (st, .ok b) := by
  have hp := put_done (c := packagePy tool v (if o.search = true then w.which tool else none) o.extra) hd hf
  unfold put at hp
  unfold Bind.bind
  rw [hv]
  dsimp only
  rw [if_neg (by rcases hn with h | h <;> simp [h]), hp]
  exact ⟨_, _, rfl⟩

/-- **C179**: wherever it is stopped, only missing directories on the way and the file have changed. -/
theorem C179_stopped (w : World) (home : Path) (tool v : Str) (o : Bind.Options) (hv : version w tool o = some v) (ht : Component tool)
    (hc : Component v) (pre : List Step) (hp : Stops (bind w home tool o).1 pre) :
    Only w.fs (Files.run w.fs pre) (o.path.getD home ++ [tool, v]) := by
  refine mine_only pre w.fs fun s hs => ?_
  have hs := hp.subset hs
  unfold Bind.bind at hs
  rw [hv] at hs
  dsimp only at hs
  rw [FilesLemmas.join_two _ ht hc] at hs
  split at hs
  · cases hs
  · exact put_mine w.fs _ _ s hs

/-- **C179**: without a version nothing is done; nor if something is there that is not to be overwritten. -/
theorem C179_refused (w : World) (home : Path) (tool : Str) (o : Bind.Options) :
    (version w tool o = none → bind w home tool o = ([], .error .version)) ∧
    ∀ v, version w tool o = some v → (mget w.fs (join (join (o.path.getD home) tool) v)).isSome = true → o.force = false →
      bind w home tool o = ([], .error .exists_) := by
  constructor
  · intro h
    unfold Bind.bind
    rw [h]
  · intro v h1 h2 h3
    unfold Bind.bind
    rw [h1]
    dsimp only
    rw [if_pos (by simp [h2, h3])]

/-- **C179**: the version that is given is taken; otherwise the one that the program prints. -/
theorem C179_version (w : World) (tool : Str) (o : Bind.Options) :
    (∀ v, o.version = some v → version w tool o = some v) ∧
    (o.version = none → ∀ p, o.search = true → w.which tool = some p → version w tool o = extract (rawVersion w p)) ∧
    (o.version = none → (o.search = false ∨ w.which tool = none) → version w tool o = extract (rawVersion w tool)) := by
  refine ⟨?_, ?_, ?_⟩
  · intro v h; unfold version; rw [h]
  · intro h p h1 h2; unfold version; rw [h]; simp [h1, h2]
  · intro h h1
    unfold version
    rw [h]
    rcases h1 with h1 | h1 <;> simp [h1]

namespace BindExamples

/-- A machine with Python. -/
def machine : World where
  fs := [([], .dir), ([c!"pkgs"], .dir)]
  which := fun t => if t = c!"python3" then some c!"/usr/bin/python3" else none
  run := fun e f => if e = c!"/usr/bin/python3" ∧ f = [c!"--version"] then some { out := c!"Python 3.11.4\n" } else none

/-- The steps and the result. -/
def bound := bind machine [c!"pkgs"] c!"python3" {}

end BindExamples
open BindExamples

/-- Python is bound. -/
example : bound.2 = .ok ⟨c!"python3", c!"3.11.4", [c!"pkgs", c!"python3", c!"3.11.4"], some c!"/usr/bin/python3"⟩ ∧
    mget (Files.run machine.fs bound.1) [c!"pkgs", c!"python3", c!"3.11.4", c!"package.py"] =
      some (.file c!"# Auto-generated by rez-next bind\n# Bound executable: /usr/bin/python3\nname = 'python3'\nversion = '3.11.4'\ndescription = 'System-installed python3 bound by rez-next bind'\ntools = ['python3']\n\ndef commands():\n    env.prepend_path('PATH', r'/usr/bin')\n\n") :=
  ⟨by decide +kernel, by decide +kernel⟩

/-- **C179** is false of the built-in tools: `python` is bound as a package with the name of the program, `python3`, and there
is no package `python`. -/
theorem C179_name_false : ∃ st b, bindBuiltin machine [c!"pkgs"] c!"python" {} = some (st, .ok b) ∧ b.name = c!"python3" ∧
    mget (Files.run machine.fs st) [c!"pkgs", c!"python"] = none := by
  refine ⟨bound.1, ⟨c!"python3", c!"3.11.4", [c!"pkgs", c!"python3", c!"3.11.4"], some c!"/usr/bin/python3"⟩, ?_, rfl, by decide +kernel⟩
  decide +kernel

/-- **C179** is false: a tool that is nowhere is bound if a version is given. -/
theorem C179_missing_false (w : World) (home : Path) (tool v : Str) (hw : w.which tool = none) (ht : Component tool) (hv : Component v)
    (hd : ∀ q, q <+: home ++ [tool, v] → mget w.fs q = none ∨ mget w.fs q = some .dir) (hn : mget w.fs (home ++ [tool, v]) = none)
    (hf : mget w.fs (home ++ [tool, v, c!"package.py"]) = none) :
    ∃ st b, bind w home tool { version := some v } = (st, .ok b) ∧ b.exe = none := by
  have hj : join (join home tool) v = home ++ [tool, v] := FilesLemmas.join_two _ ht hv
  obtain ⟨st, b, hb⟩ := C179_succeeds w home tool v { version := some v } rfl (by simpa [hj] using hd)
    (by simp only [Option.getD_none, hj, List.append_assoc, List.cons_append, List.nil_append]; rw [hf]; simp) (Or.inl (by simpa [hj] using hn))
  refine ⟨st, b, hb, ?_⟩
  have hbv : b.version = v := by
    unfold Bind.bind version at hb
    dsimp only at hb
    generalize (if true = true then w.which tool else none) = exe at hb
    split at hb
    · cases hb
    · simp only [Prod.mk.injEq] at hb
      obtain ⟨-, h2⟩ := hb
      split at h2
      · cases h2; rfl
      · cases h2
  have := (C179_bound w home tool _ st b hb ht (hbv ▸ hv)).2.2.2.1
  rw [this]
  simp [hw]

/-- **C179** is false after a crash: stopped after the directory was made, the next try is refused although there is no
package. -/
theorem C179_crash_false : ∃ pre, Stops bound.1 pre ∧
    mget (Files.run machine.fs pre) [c!"pkgs", c!"python3", c!"3.11.4", c!"package.py"] = none ∧
    (bind { machine with fs := Files.run machine.fs pre } [c!"pkgs"] c!"python3" {}).2 = .error .exists_ := by
  refine ⟨bound.1.take 4, List.take_prefix _ _, by decide +kernel, by decide +kernel⟩

/-- **C179** is false of names that are no single part of a path: the package is then written elsewhere. -/
theorem C179_outside_false : ∃ st b, bind machine [c!"pkgs"] c!"../etc/tool" { version := some c!"1.0" } = (st, .ok b) ∧
    ¬ [c!"pkgs"] <+: b.path := by
  refine ⟨(bind machine [c!"pkgs"] c!"../etc/tool" { version := some c!"1.0" }).1, ⟨c!"../etc/tool", c!"1.0", [c!"etc", c!"tool", c!"1.0"], none⟩, ?_, by decide⟩
  refine Prod.ext rfl ?_
  decide +kernel

/-! ## C180: what the files say -/

namespace BindLemmas
open SerialLemmas Rez.Spec.Serial

theorem expr_single {s : Str} (h : Quotable s) : Expr (single s) (.str s) := by
  have := Expr.single h
  simpa [single] using this

theorem quotable_append {a b : Str} (ha : Quotable a) (hb : Quotable b) : Quotable (a ++ b) := by
  intro c hc
  rcases List.mem_append.1 hc with h | h
  · exact ha c h
  · exact hb c h

theorem quotable_dec {s : Str} (h : (s.all fun c => c != '\'' && c != '\\' && c != '\n' && c != '\r') = true) : Quotable s := by
  intro c hc
  have := List.all_eq_true.1 h c hc
  simpa [and_assoc] using this

theorem parent_of {d f : Str} (hf : '/' ∉ f) (hd : d ≠ []) (hb : '\\' ∉ d) : parent (d ++ '/' :: f) = d := by
  unfold parent
  rw [rsplitOnce_append d hf]
  simp only [Option.map_some, Option.getD_some]
  rw [if_neg (by simpa using hd)]
  unfold RexShell.replaceChar
  clear hd
  induction d with
  | nil => rfl
  | cons c d ih =>
    simp only [List.mem_cons, not_or] at hb
    rw [List.flatMap_cons, ih hb.2, if_neg (Ne.symm hb.1)]
    rfl

theorem program_line {t : Str} (h : '\n' ∉ t) : Program ('#' :: t ++ c!"\n") [] := by
  have := Program.comment h .done
  rwa [List.append_nil] at this

theorem program_function' {n : Str} {body : List Str} (hn : Ident n) (h1 : ∃ b ∈ body, b ≠ []) (h2 : Without '\n' body) :
    Program (c!"def " ++ n ++ c!"():\n" ++ indented body) [.function n body] := by
  have := Program.function (List.all_eq_true.mp hn.1) hn.2 h1 h2 .done
  rwa [List.append_nil] at this

theorem program_empty : Program c!"\n" [] := .blank .done

theorem program_extra : ∀ (l : List (Str × Str)), (∀ e ∈ l, Ident e.1 ∧ Quotable e.2) →
    Program (l.flatMap fun e => e.1 ++ c!" = " ++ single e.2 ++ c!"\n") (l.map fun e => .assign e.1 (.str e.2)) := by
  intro l
  induction l with
  | nil => intro _; exact .done
  | cons e l ih =>
    intro h
    rw [List.flatMap_cons, List.map_cons]
    exact program_append (program_assign (h e List.mem_cons_self).1 (expr_single (h e List.mem_cons_self).2))
      (ih fun x hx => h x (List.mem_cons_of_mem _ hx))

end BindLemmas

/-- The statements of a package of a tool. -/
def toolStmts (name version : Str) (extra : List (Str × Str)) : List Rez.Spec.Serial.Stmt :=
  [.assign c!"name" (.str name), .assign c!"version" (.str version),
   .assign c!"description" (.str (c!"System-installed " ++ name ++ c!" bound by rez-next bind")), .assign c!"tools" (.list [.str name])] ++
  extra.map fun e => .assign e.1 (.str e.2)

namespace BindLemmas
open SerialLemmas Rez.Spec.Serial

theorem program_tool {name version : Str} {extra : List (Str × Str)} (hn : Quotable name) (hv : Quotable version)
    (he : ∀ e ∈ extra, Ident e.1 ∧ Quotable e.2) :
    Program (c!"name = " ++ single name ++ c!"\n" ++
      c!"version = " ++ single version ++ c!"\n" ++
      c!"description = " ++ single (c!"System-installed " ++ name ++ c!" bound by rez-next bind") ++ c!"\n" ++
      c!"tools = [" ++ single name ++ c!"]\n" ++
      extra.flatMap (fun e => e.1 ++ c!" = " ++ single e.2 ++ c!"\n")) (toolStmts name version extra) := by
  have h1 := program_assign (n := c!"name") (ident_dec rfl) (expr_single hn)
  have h2 := program_assign (n := c!"version") (ident_dec rfl) (expr_single hv)
  have h3 := program_assign (n := c!"description") (ident_dec rfl)
    (expr_single (s := c!"System-installed " ++ name ++ c!" bound by rez-next bind")
      (quotable_append (quotable_append (quotable_dec rfl) hn) (quotable_dec rfl)))
  have hi := Items.last (a := []) (b := []) (by intro c hc; cases hc) (expr_single hn) (by intro c hc; cases hc)
  have h4 := program_assign (n := c!"tools") (ident_dec rfl) (.list hi)
  have := program_append (program_append (program_append (program_append h1 h2) h3) h4) (program_extra extra he)
  simpa [toolStmts] using this

end BindLemmas

set_option maxRecDepth 4000 in
/-- **C180**: the file of a tool whose program is known is a Python program that says the name, the version, the tool, what was
given besides, and that the directory of the program comes first in `PATH`. -/
theorem C180_known (name version d f : Str) (extra : List (Str × Str)) (hn : Quotable name) (hv : Quotable version)
    (he : ∀ e ∈ extra, ((∀ c ∈ e.1, isAlpha c || c == '_') ∧ e.1 ≠ []) ∧ Quotable e.2) (hd : Quotable d) (hne : d ≠ [])
    (hf : '/' ∉ f) (hl : '\n' ∉ f) :
    Rez.Spec.Serial.Program (packagePy name version (some (d ++ '/' :: f)) extra)
      (toolStmts name version extra ++ [.function c!"commands" [c!"env.prepend_path('PATH', r'" ++ d ++ c!"')"]]) := by
  have hb : '\\' ∉ d := fun h => (hd _ h).2.1 rfl
  have hnl : '\n' ∉ d := fun h => (hd _ h).2.2.1 rfl
  have h1 := program_line (t := c!" Auto-generated by rez-next bind") (by decide)
  have h2 := program_line (t := c!" Bound executable: " ++ (d ++ '/' :: f)) (by
    intro h
    rcases List.mem_append.1 h with h | h
    · exact absurd h (by decide)
    · rcases List.mem_append.1 h with h | h
      · exact hnl h
      · rcases List.mem_cons.1 h with h | h
        · exact absurd h (by decide)
        · exact hl h)
  have h3 := program_tool hn hv (extra := extra) fun e h => ⟨⟨List.all_eq_true.mpr (he e h).1.1, (he e h).1.2⟩, (he e h).2⟩
  have h4 := program_function' (n := c!"commands") (body := [c!"env.prepend_path('PATH', r'" ++ d ++ c!"')"]) (SerialLemmas.ident_dec rfl)
    ⟨_, List.mem_singleton_self _, by simp⟩ (by
      intro s hs
      rw [List.mem_singleton.1 hs]
      intro h
      rcases List.mem_append.1 h with h | h
      · rcases List.mem_append.1 h with h | h
        · exact absurd h (by decide)
        · exact hnl h
      · exact absurd h (by decide))
  have := SerialLemmas.program_append (SerialLemmas.program_append (SerialLemmas.program_append (SerialLemmas.program_append
    (SerialLemmas.program_append h1 h2) h3) program_empty) h4) program_empty
  unfold packagePy
  simp only [Option.map_some, Option.getD_some, parent_of hf hne hb]
  rw [if_neg (by simpa using hne)]
  simpa [Rez.Spec.Serial.indented, single] using this

/-- **C180**: and the file of a tool whose program is not known says all but the last. -/
theorem C180_unknown (name version : Str) (extra : List (Str × Str)) (hn : Quotable name) (hv : Quotable version)
    (he : ∀ e ∈ extra, ((∀ c ∈ e.1, isAlpha c || c == '_') ∧ e.1 ≠ []) ∧ Quotable e.2) :
    Rez.Spec.Serial.Program (packagePy name version none extra) (toolStmts name version extra) := by
  have h1 := program_line (t := c!" Auto-generated by rez-next bind") (by decide)
  have h2 := program_line (t := c!" Executable path not detected") (by decide)
  have h3 := program_tool hn hv (extra := extra) fun e h => ⟨⟨List.all_eq_true.mpr (he e h).1.1, (he e h).1.2⟩, (he e h).2⟩
  have := SerialLemmas.program_append (SerialLemmas.program_append (SerialLemmas.program_append h1 h2) h3) program_empty
  unfold packagePy
  simpa using this

/-- Such a tool. -/
example : Quotable c!"python3" ∧ Quotable c!"3.11.4" ∧ Quotable c!"/usr/bin" ∧
    packagePy c!"python3" c!"3.11.4" (some (c!"/usr/bin" ++ '/' :: c!"python3")) [(c!"author", c!"me")] =
      c!"# Auto-generated by rez-next bind\n# Bound executable: /usr/bin/python3\nname = 'python3'\nversion = '3.11.4'\ndescription = 'System-installed python3 bound by rez-next bind'\ntools = ['python3']\nauthor = 'me'\n\ndef commands():\n    env.prepend_path('PATH', r'/usr/bin')\n\n" :=
  ⟨quotable_dec rfl, quotable_dec rfl, quotable_dec rfl, by decide +kernel⟩

/-- **C180** is false of texts with a quote: a version with a quote and a line break says more than a version. -/
theorem C180_inject_false : ∃ v, Rez.Spec.Serial.Program (packagePy c!"tool" v none [])
    [.assign c!"name" (.str c!"tool"), .assign c!"version" (.str c!"1.0"), .assign c!"late" (.str c!"yes"),
     .assign c!"description" (.str c!"System-installed tool bound by rez-next bind"), .assign c!"tools" (.list [.str c!"tool"])] := by
  refine ⟨c!"1.0'\nlate = 'yes", ?_⟩
  have h1 := program_line (t := c!" Auto-generated by rez-next bind") (by decide)
  have h2 := program_line (t := c!" Executable path not detected") (by decide)
  have h3 := SerialLemmas.program_assign (n := c!"name") (SerialLemmas.ident_dec rfl) (expr_single (s := c!"tool") (quotable_dec rfl))
  have h4 := SerialLemmas.program_assign (n := c!"version") (SerialLemmas.ident_dec rfl) (expr_single (s := c!"1.0") (quotable_dec rfl))
  have h5 := SerialLemmas.program_assign (n := c!"late") (SerialLemmas.ident_dec rfl) (expr_single (s := c!"yes") (quotable_dec rfl))
  have h6 := SerialLemmas.program_assign (n := c!"description") (SerialLemmas.ident_dec rfl)
    (expr_single (s := c!"System-installed tool bound by rez-next bind") (quotable_dec rfl))
  have hi := Rez.Spec.Serial.Items.last (a := []) (b := []) (by intro c hc; cases hc) (expr_single (s := c!"tool") (quotable_dec rfl))
    (by intro c hc; cases hc)
  have h7 := SerialLemmas.program_assign (n := c!"tools") (SerialLemmas.ident_dec rfl) (.list hi)
  exact SerialLemmas.program_append h1 (SerialLemmas.program_append h2 (SerialLemmas.program_append h3 (SerialLemmas.program_append h4
    (SerialLemmas.program_append h5 (SerialLemmas.program_append h6 (SerialLemmas.program_append h7 program_empty))))))

/-- **C180** is false of names with a quote: the file of `it's` has the line `name = 'it's'`, which is no assignment. -/
theorem C180_quote_false : (∃ a b, packagePy c!"it's" c!"1.0" none [] = a ++ c!"\nname = 'it's'\n" ++ b) ∧
    ¬ ∃ e, Rez.Spec.Serial.Expr c!"'it's'" e := by
  refine ⟨⟨c!"# Auto-generated by rez-next bind\n# Executable path not detected",
    c!"version = '1.0'\ndescription = 'System-installed it's bound by rez-next bind'\ntools = ['it's']\n\n", by decide +kernel⟩, ?_⟩
  rintro ⟨e, he⟩
  generalize hs : c!"'it's'" = t at he
  cases he with
  | @single s h =>
    have hs' : s = c!"it's" := by
      have : c!"it's" ++ ['\''] = s ++ ['\''] := by simpa using hs
      exact (List.append_inj_left' this rfl).symm
    subst hs'
    exact (h '\'' (by decide)).1 rfl
  | str _ => simp at hs
  | true => simp at hs
  | false => simp at hs
  | list _ => simp at hs

/-! ## C182: the command -/

/-- The version of a tool for the command. -/
def toolVersion (w : World) (n : Str) : Str := ((detect w n).map Tool.version).getD c!"1.0.0"

/-- The file that the command writes. -/
def toolFile (w : World) (noDeps : Bool) (n : Str) : Str :=
  generate n (toolVersion w n) (description n) (if noDeps then [] else requirements n) (tools n) (commands n ((detect w n).bind Tool.exe))

/-- The lines of `commands` for a tool with a program in a directory, or with none. -/
def toolLines (n : Str) (dir : Option Str) : Option (List Str) :=
  if n ∈ [c!"python", c!"pip", c!"cmake", c!"git", c!"gcc", c!"clang"] then
    match dir with
    | some d => some [c!"import os", c!"env.PATH.prepend('" ++ d ++ c!"')"]
    | none => if n = c!"python" then some [c!"env.PATH.prepend('{root}/bin')"] else none
  else none

namespace BindLemmas
open SerialLemmas Rez.Spec.Serial

theorem program_items {n : Str} {l : List Str} (hn : Ident n) (h : ∀ s ∈ l, Quotable s) : Program (block n l) (listStmt n l) := by
  unfold block listStmt
  cases l with
  | nil => exact .done
  | cons x l =>
    have h1 := items_terms single Py.str (fun s hs => expr_single (h s hs)) (a := c!"\n") (lead := c!"    ") (trail := c!"\n")
      (blank_dec rfl) (blank_dec rfl) (blank_dec rfl)
    have := program_append (program_assign hn (.list h1)) program_empty
    simpa using this

theorem table_quotable {t : List (Str × List Str)} (h : (t.all fun e => e.2.all fun s => s.all fun c => c != '\'' && c != '\\' && c != '\n' && c != '\r') = true)
    (n : Str) : ∀ s ∈ (mget t n).getD [], Quotable s := by
  intro s hs
  cases hm : mget t n with
  | none => rw [hm] at hs; cases hs
  | some v =>
    rw [hm] at hs
    exact quotable_dec (List.all_eq_true.1 (List.all_eq_true.1 h _ (mget_some_mem hm)) s hs)

theorem description_quotable {n : Str} (hn : Quotable n) : Quotable (description n) := by
  unfold description
  generalize ht : ([_, _, _, _, _, _, _, _, _, _, _] : List (Str × Str)) = t
  have hall : (t.all fun e => e.2.all fun c => c != '\'' && c != '\\' && c != '\n' && c != '\r') = true := by
    rw [← ht]; decide +kernel
  cases hm : mget t n with
  | none => exact quotable_append (quotable_dec rfl) hn
  | some v => exact quotable_dec (List.all_eq_true.1 hall _ (mget_some_mem hm))

theorem program_generate {name version desc : Str} {req tools : List Str} {body : Option (List Str)} (hn : Quotable name)
    (hv : Quotable version) (hd : Quotable desc) (hr : ∀ s ∈ req, Quotable s) (ht : ∀ s ∈ tools, Quotable s)
    (hb : ∀ l ∈ body, (∃ b ∈ l, b ≠ []) ∧ Without '\n' l) :
    Program (generate name version desc req tools (body.map indented))
      ([.assign c!"name" (.str name), .assign c!"version" (.str version), .assign c!"description" (.str desc)] ++
        listStmt c!"requires" req ++ listStmt c!"tools" tools ++ (body.elim [] fun l => [.function c!"commands" l])) := by
  have h1 := program_assign (n := c!"name") (ident_dec rfl) (expr_single hn)
  have h2 := program_append (program_assign (n := c!"version") (ident_dec rfl) (expr_single hv)) program_empty
  have h3 := program_append (program_assign (n := c!"description") (ident_dec rfl) (expr_single hd)) program_empty
  have h4 := program_items (n := c!"requires") (ident_dec rfl) hr
  have h5 := program_items (n := c!"tools") (ident_dec rfl) ht
  have h6 : Program ((body.map indented).elim [] fun b => c!"def commands():\n" ++ b ++ c!"\n")
      (body.elim [] fun l => [.function c!"commands" l]) := by
    cases body with
    | none => exact .done
    | some l =>
      have := program_append (program_function' (n := c!"commands") (ident_dec rfl) (hb l rfl).1 (hb l rfl).2) program_empty
      simpa using this
  have := program_append (program_append (program_append (program_append (program_append h1 h2) h3) h4) h5) h6
  unfold generate
  simpa using this

theorem commands_lines {n d f : Str} (hf : '/' ∉ f) (hne : d ≠ []) (hb : '\\' ∉ d) :
    commands n (some (d ++ '/' :: f)) = (toolLines n (some d)).map indented := by
  unfold commands toolLines
  simp only [Option.map_some, Option.getD_some, parent_of hf hne hb]
  have he : d.isEmpty = false := by simpa using hne
  by_cases h1 : n = c!"python"
  · subst h1
    simp [he, indented, single]
  · rw [if_neg h1]
    by_cases h2 : n ∈ [c!"pip", c!"cmake", c!"git", c!"gcc", c!"clang"]
    · rw [if_pos h2, if_pos (List.mem_cons_of_mem _ h2)]
      simp [he, indented, single]
    · rw [if_neg h2, if_neg (by rw [List.mem_cons]; exact fun h => h.elim h1 h2)]
      rfl

theorem commands_none {n : Str} : commands n none = (toolLines n none).map indented := by
  unfold commands toolLines
  simp only [Option.map_none, Option.getD_none]
  by_cases h1 : n = c!"python"
  · subst h1
    rfl
  · rw [if_neg h1]
    by_cases h2 : n ∈ [c!"pip", c!"cmake", c!"git", c!"gcc", c!"clang"]
    · rw [if_pos h2, if_pos (List.mem_cons_of_mem _ h2), if_neg h1]
      rfl
    · rw [if_neg h2, if_neg (by rw [List.mem_cons]; exact fun h => h.elim h1 h2)]
      rfl

theorem toolLines_ok {n : Str} {d : Option Str} (h : ∀ x ∈ d, '\n' ∉ x) : ∀ l ∈ toolLines n d, (∃ b ∈ l, b ≠ []) ∧ Without '\n' l := by
  intro l hl
  unfold toolLines at hl
  split at hl
  · cases d with
    | some d =>
      simp only [Option.mem_def, Option.some.injEq] at hl
      subst hl
      refine ⟨⟨_, List.mem_cons_self, by simp⟩, ?_⟩
      intro s hs
      simp only [List.mem_cons, List.not_mem_nil, or_false] at hs
      rcases hs with rfl | rfl
      · decide
      · intro hc
        rcases List.mem_append.1 hc with hc | hc
        · rcases List.mem_append.1 hc with hc | hc
          · exact absurd hc (by decide)
          · exact h d rfl hc
        · exact absurd hc (by decide)
    | none =>
      dsimp only at hl
      split at hl
      · simp only [Option.mem_def, Option.some.injEq] at hl
        subst hl
        refine ⟨⟨_, List.mem_cons_self, by simp⟩, ?_⟩
        intro s hs
        rw [List.mem_singleton.1 hs]
        decide
      · cases hl
  · cases hl

end BindLemmas

/-- **C180**, the file of the command: it says the name, the version, the description, what is needed, the tools, and what is
done to `PATH`. -/
theorem C180_command (w : World) (noDeps : Bool) (n : Str) (dir : Option Str) (hn : Quotable n) (hv : Quotable (toolVersion w n))
    (hd : ∀ d ∈ dir, Quotable d ∧ d ≠ [])
    (he : (detect w n).bind Tool.exe = none ∧ dir = none ∨ ∃ d f, (detect w n).bind Tool.exe = some (d ++ '/' :: f) ∧ '/' ∉ f ∧ dir = some d) :
    Rez.Spec.Serial.Program (toolFile w noDeps n)
      ([.assign c!"name" (.str n), .assign c!"version" (.str (toolVersion w n)), .assign c!"description" (.str (description n))] ++
        Rez.Spec.Serial.listStmt c!"requires" (if noDeps then [] else requirements n) ++ Rez.Spec.Serial.listStmt c!"tools" (tools n) ++
        ((toolLines n dir).elim [] fun l => [.function c!"commands" l])) := by
  have hc : commands n ((detect w n).bind Tool.exe) = (toolLines n dir).map Rez.Spec.Serial.indented := by
    rcases he with ⟨h1, h2⟩ | ⟨d, f, h1, hf, h2⟩
    · rw [h1, h2]; exact commands_none
    · rw [h1, h2]
      exact commands_lines hf (hd d h2).2 fun h => ((hd d h2).1 _ h).2.1 rfl
  unfold toolFile
  rw [hc]
  refine program_generate hn hv (description_quotable hn) ?_ (table_quotable (by decide +kernel) n)
    (toolLines_ok fun x hx h => ((hd x hx).1 _ h).2.2.1 rfl)
  cases noDeps with
  | true => intro s hs; cases hs
  | false => exact table_quotable (by decide +kernel) n

/-- **C180**, the file of a tool that is known: it says the packages that it needs, unless they are not wanted, and its commands. -/
theorem C180_known_tools (w : World) (noDeps : Bool) (n : Str) (rs ts : List Str) (hk : (n, rs, ts) ∈ known) (dir : Option Str)
    (hv : Quotable (toolVersion w n)) (hd : ∀ d ∈ dir, Quotable d ∧ d ≠ [])
    (he : (detect w n).bind Tool.exe = none ∧ dir = none ∨ ∃ d f, (detect w n).bind Tool.exe = some (d ++ '/' :: f) ∧ '/' ∉ f ∧ dir = some d) :
    ∃ pre post, Rez.Spec.Serial.Program (toolFile w noDeps n)
      (pre ++ Rez.Spec.Serial.listStmt c!"requires" (if noDeps then [] else rs) ++ Rez.Spec.Serial.listStmt c!"tools" ts ++ post) := by
  have hall : ∀ k ∈ known, (k.1.all fun c => c != '\'' && c != '\\' && c != '\n' && c != '\r') = true ∧ requirements k.1 = k.2.1 ∧ tools k.1 = k.2.2 := by decide +kernel
  obtain ⟨h1, h2, h3⟩ := hall _ hk
  have := C180_command w noDeps n dir (quotable_dec h1) hv hd he
  rw [show requirements n = rs from h2, show tools n = ts from h3] at this
  exact ⟨_, _, this⟩

namespace BindLemmas
open FilesLemmas

theorem single_put (w : World) (fs : FS) (root : Path) (noDeps : Bool) (n : Str) (hn : Component n) (hv : Component (toolVersion w n)) :
    bindSingle w fs root noDeps n = if (Version.parse (toolVersion w n)).isNone then ([], .failed)
      else put fs (root ++ [n, toolVersion w n]) (toolFile w noDeps n) := by
  unfold bindSingle
  dsimp only
  rw [show ((detect w n).map Tool.version).getD c!"1.0.0" = toolVersion w n from rfl, join_two _ hn hv]
  rfl

theorem single_mine (w : World) (fs : FS) (root : Path) (noDeps : Bool) (n : Str) (hn : Component n) (hv : Component (toolVersion w n)) :
    ∀ s ∈ (bindSingle w fs root noDeps n).1, Mine (root ++ [n, toolVersion w n]) s := by
  rw [single_put w fs root noDeps n hn hv]
  split
  · intro s hs; cases hs
  · exact put_mine fs _ _

end BindLemmas

/-- **C182**: a bind of one tool that succeeds: its package file says what it should say, in the directory that was asked for,
and nothing else has changed but that missing directories on the way were made. -/
theorem C182_bound (w : World) (locals releases : Path) (a : Bind.Args) (spec : Str) (st : List Step) (ha : a.package = some spec)
    (hl : a.list = false) (hq : a.quickstart = false) (hs : a.search = false) (h : execute w locals releases a = (st, .done))
    (hn : Component (parseSpec spec).1) (hv : Component (toolVersion w (parseSpec spec).1)) :
    mget (Files.run w.fs st) ((if a.release then releases else a.path.getD locals) ++
      [(parseSpec spec).1, toolVersion w (parseSpec spec).1, c!"package.py"]) = some (.file (toolFile w a.noDeps (parseSpec spec).1)) ∧
    Only w.fs (Files.run w.fs st) ((if a.release then releases else a.path.getD locals) ++
      [(parseSpec spec).1, toolVersion w (parseSpec spec).1]) := by
  unfold execute at h
  rw [hl, hq, hs, ha] at h
  simp only [Bool.false_eq_true, if_false] at h
  rw [show installPath locals releases a = (if a.release then releases else a.path.getD locals) from rfl] at h
  generalize (if a.release then releases else a.path.getD locals) = root at h ⊢
  generalize (parseSpec spec).1 = n at hn hv h ⊢
  have hm : ∀ s ∈ st, Mine (root ++ [n, toolVersion w n]) s := by
    have := next_mine (fs := w.fs) (makeAll_mine (fs := w.fs) (List.prefix_append root [n, toolVersion w n]))
      fun fs => single_mine w fs root a.noDeps n hn hv
    rw [h] at this
    exact this
  refine ⟨?_, mine_only st w.fs hm⟩
  obtain ⟨s1, s2, -, h2, rfl⟩ := BundleLemmas.next_done h
  rw [single_put w _ root a.noDeps n hn hv] at h2
  split at h2
  · cases h2
  · have := put_file h2
    rw [FilesLemmas.run_append]
    simpa using this

/-- **C182**: it succeeds whenever only directories are on the way, the version can be read, and no directory is in the place
of the file. -/
theorem C182_succeeds (w : World) (locals releases : Path) (a : Bind.Args) (spec : Str) (ha : a.package = some spec)
    (hl : a.list = false) (hq : a.quickstart = false) (hs : a.search = false)
    (hn : Component (parseSpec spec).1) (hv : Component (toolVersion w (parseSpec spec).1))
    (hp : (Version.parse (toolVersion w (parseSpec spec).1)).isSome = true)
    (hd : ∀ q, q <+: (if a.release then releases else a.path.getD locals) ++ [(parseSpec spec).1, toolVersion w (parseSpec spec).1] →
      mget w.fs q = none ∨ mget w.fs q = some .dir)
    (hf : mget w.fs ((if a.release then releases else a.path.getD locals) ++
      [(parseSpec spec).1, toolVersion w (parseSpec spec).1, c!"package.py"]) ≠ some .dir) :
    ∃ st, execute w locals releases a = (st, .done) := by
  generalize hnn : (parseSpec spec).1 = n at hn hv hp hd hf
  have hr : installPath locals releases a = (if a.release then releases else a.path.getD locals) := rfl
  unfold execute
  rw [hl, hq, hs, ha]
  simp only [Bool.false_eq_true, if_false, hnn]
  rw [hr]
  generalize (if a.release then releases else a.path.getD locals) = root at hd hf
  have hb : blocked w.fs root = false := by
    unfold blocked
    rw [List.any_eq_false]
    intro q hq
    rcases hd q (((List.mem_inits q root).1 hq).trans (List.prefix_append _ _)) with h | h <;> simp [h]
  unfold Bundle.next Bundle.makeAll
  rw [hb]
  simp only [Bool.false_eq_true, if_false]
  have h2 : (bindSingle w (Files.run w.fs (mkdirAll root)) root a.noDeps n).2 = .done := by
    rw [single_put w _ root a.noDeps n hn hv, if_neg (by rw [Option.isNone_iff_eq_none, ← Option.not_isSome_iff_eq_none, hp]; simp)]
    refine put_done (fun q hq => ?_) ?_
    · rw [FilesLemmas.mkdirAll_get]
      by_cases h : q <+: root
      · rw [if_pos h]
        rcases hd q hq with h1 | h1 <;> rw [h1] <;> exact Or.inr rfl
      · rw [if_neg h]; exact hd q hq
    · rw [FilesLemmas.mkdirAll_get, if_neg]
      · simpa using hf
      · intro h
        have := h.length_le
        simp at this
        omega
  exact ⟨_, Prod.ext rfl h2⟩

namespace BindLemmas
open FilesLemmas

/-- What is needed for each. -/
structure Free (w : World) (fs : FS) (root : Path) (n : Str) : Prop where
  name : Component n
  version : Component (toolVersion w n)
  parsed : (Version.parse (toolVersion w n)).isSome = true
  way : ∀ q, q <+: root ++ [n, toolVersion w n] → mget fs q = none ∨ mget fs q = some .dir
  place : mget fs (root ++ [n, toolVersion w n, c!"package.py"]) ≠ some .dir

theorem apart {root : Path} {m n v x : Str} (h : m ≠ n) (y : List Str) : root ++ m :: y ≠ root ++ [n, v, x] := by
  intro e
  simp only [List.append_cancel_left_eq, List.cons.injEq] at e
  exact h e.1

theorem free_step {w : World} {fs : FS} {root : Path} {m n : Str} (hm : Free w fs root m) (hn : Free w fs root n) (h : m ≠ n) :
    Free w (Files.run fs (bindSingle w fs root true n).1) root m := by
  have ho : Only fs (Files.run fs (bindSingle w fs root true n).1) (root ++ [n, toolVersion w n]) :=
    mine_only _ fs (single_mine w fs root true n hn.name hn.version)
  refine ⟨hm.name, hm.version, hm.parsed, fun q hq => ?_, ?_⟩
  · have hne : q ≠ root ++ [n, toolVersion w n] ++ [c!"package.py"] := by
      rintro rfl
      obtain ⟨t, ht⟩ := hq
      simp only [List.append_assoc, List.cons_append, List.nil_append, List.append_cancel_left_eq, List.cons.injEq] at ht
      exact h ht.1.symm
    rcases ho q hne with e | ⟨-, -, e⟩
    · rw [e]; exact hm.way q hq
    · exact Or.inr e
  · have hne : root ++ [m, toolVersion w m, c!"package.py"] ≠ root ++ [n, toolVersion w n] ++ [c!"package.py"] := by
      simp [h]
    rcases ho _ hne with e | ⟨⟨t, ht⟩, -, -⟩
    · rw [e]; exact hm.place
    · simp only [List.append_assoc, List.cons_append, List.nil_append, List.append_cancel_left_eq, List.cons.injEq] at ht
      exact absurd ht.1 h

theorem kept_quick (w : World) (root : Path) : ∀ (l : List Str) (fs : FS) (n v : Str), n ∉ l →
    (∀ m ∈ l, Component m ∧ Component (toolVersion w m)) →
    mget (Files.run fs (quickEach w root fs l)) (root ++ [n, v, c!"package.py"]) = mget fs (root ++ [n, v, c!"package.py"]) := by
  intro l
  induction l with
  | nil => intro fs n v _ _; rfl
  | cons m l ih =>
    intro fs n v hn hc
    rw [quickEach, run_append, ih _ n v (fun h => hn (List.mem_cons_of_mem _ h)) fun x hx => hc x (List.mem_cons_of_mem _ hx)]
    have hmn : n ≠ m := fun h => hn (h ▸ List.mem_cons_self)
    have hcm := hc m List.mem_cons_self
    have ho : Only fs (Files.run fs (bindSingle w fs root true m).1) (root ++ [m, toolVersion w m]) :=
      mine_only _ fs (single_mine w fs root true m hcm.1 hcm.2)
    rcases ho (root ++ [n, v, c!"package.py"]) (by simp [hmn]) with e | ⟨⟨t, ht⟩, -, -⟩
    · exact e
    · simp only [List.append_assoc, List.cons_append, List.append_cancel_left_eq, List.cons.injEq] at ht
      exact absurd ht.1 hmn

theorem quick_all (w : World) (root : Path) : ∀ (l : List Str) (fs : FS), l.Nodup → (∀ n ∈ l, Free w fs root n) → ∀ n ∈ l,
    mget (Files.run fs (quickEach w root fs l)) (root ++ [n, toolVersion w n, c!"package.py"]) = some (.file (toolFile w true n)) := by
  intro l
  induction l with
  | nil => intro fs _ _ n hn; cases hn
  | cons m l ih =>
    intro fs hnd hf n hn
    rw [List.nodup_cons] at hnd
    have hm := hf m List.mem_cons_self
    rw [quickEach, run_append]
    rcases List.mem_cons.1 hn with rfl | hn
    · rw [kept_quick w root l _ n _ hnd.1 fun x hx => ⟨(hf x (List.mem_cons_of_mem _ hx)).name, (hf x (List.mem_cons_of_mem _ hx)).version⟩]
      have hp : bindSingle w fs root true n = put fs (root ++ [n, toolVersion w n]) (toolFile w true n) := by
        rw [single_put w fs root true n hm.name hm.version, if_neg (by rw [Option.isNone_iff_eq_none, ← Option.not_isSome_iff_eq_none, hm.parsed]; simp)]
      rw [hp]
      have hd := put_done (c := toolFile w true n) hm.way (by simpa using hm.place)
      have := put_file (st := (put fs (root ++ [n, toolVersion w n]) (toolFile w true n)).1) (Prod.ext rfl hd)
      simpa using this
    · refine ih _ hnd.2 (fun x hx => free_step (hf x (List.mem_cons_of_mem _ hx)) hm ?_) n hn
      rintro rfl
      exact hnd.1 hx

end BindLemmas

/-- **C182**, the quick start, if nothing is in the way: all seven packages are there.  Missing: their dependencies
(`C182_requires_false`), and that failures are told (`C182_quick_false`). -/
theorem C182_quick_partial (w : World) (locals releases : Path) (a : Bind.Args) (hl : a.list = false) (hq : a.quickstart = true)
    (hfree : ∀ n ∈ quick, Component (toolVersion w n) ∧ (Version.parse (toolVersion w n)).isSome = true)
    (hway : ∀ q, q <+: (if a.release then releases else a.path.getD locals) → mget w.fs q = none ∨ mget w.fs q = some .dir)
    (hempty : ∀ q, q ≠ [] → mget w.fs ((if a.release then releases else a.path.getD locals) ++ q) = none) :
    (execute w locals releases a).2 = .done ∧
    ∀ n ∈ [c!"platform", c!"arch", c!"os", c!"python", c!"rez", c!"setuptools", c!"pip"],
      mget (Files.run w.fs (execute w locals releases a).1)
        ((if a.release then releases else a.path.getD locals) ++ [n, toolVersion w n, c!"package.py"]) = some (.file (toolFile w true n)) := by
  have hr : installPath locals releases a = (if a.release then releases else a.path.getD locals) := rfl
  unfold execute
  rw [hl, hq, hr]
  generalize (if a.release then releases else a.path.getD locals) = root at hway hempty ⊢
  simp only [Bool.false_eq_true, if_false, if_true]
  have hb : blocked w.fs root = false := by
    unfold blocked
    rw [List.any_eq_false]
    intro q hq
    rcases hway q ((List.mem_inits q root).1 hq) with h | h <;> simp [h]
  unfold Bundle.next Bundle.makeAll
  rw [hb]
  simp only [Bool.false_eq_true, if_false]
  refine ⟨trivial, fun n hn => ?_⟩
  rw [FilesLemmas.run_append]
  refine quick_all w root quick _ (by decide) (fun m hm => ?_) n hn
  have hnone : ∀ q, q ≠ [] → mget (Files.run w.fs (mkdirAll root)) (root ++ q) = none := by
    intro q hq
    rw [FilesLemmas.mkdirAll_get, if_neg, hempty q hq]
    intro h
    have := h.length_le
    rw [List.length_append] at this
    exact hq (List.length_eq_zero_iff.1 (by omega))
  refine ⟨?_, (hfree m hm).1, (hfree m hm).2, fun q hq => ?_, ?_⟩
  · have : ∀ x ∈ quick, x ≠ [] ∧ x ≠ c!"." ∧ x ≠ c!".." ∧ '/' ∉ x := by decide
    have := this m hm
    exact ⟨this.1, this.2.2.2, this.2.1, this.2.2.1⟩
  · by_cases h : q <+: root
    · rw [FilesLemmas.mkdirAll_get, if_pos h]
      rcases hway q h with h1 | h1 <;> rw [h1] <;> exact Or.inr rfl
    · have : root <+: q := (List.prefix_or_prefix_of_prefix hq (List.prefix_append root _)).resolve_left h
      obtain ⟨t, rfl⟩ := this
      exact Or.inl (hnone t (by rintro rfl; exact h (by simp)))
  · rw [hnone _ (by simp)]; simp

namespace BindExamples

/-- A machine with Python and pip. -/
def box : World where
  fs := [([], .dir), ([c!"pkgs"], .dir)]
  which := fun t => some (c!"/usr/bin/" ++ t)
  run := fun e f =>
    if f = [c!"--version"] ∧ e = c!"python3" then some { out := c!"Python 3.11.4\n" }
    else if f = [c!"--version"] ∧ e = c!"pip3" then some { out := c!"pip 23.1.2 from /usr/lib (python 3.11)\n" }
    else if e = c!"python3" then some { out := c!"68.0.0\n" }
    else none
  release := some c!"NAME=\"Ubuntu\"\nVERSION_ID=\"22.04\"\n"
  own := c!"0.1.0"

/-- pip. -/
def pip : Bind.Args := { package := some c!"pip" }

end BindExamples
open BindExamples

/-- pip is bound, with what it needs. -/
example : (execute box [c!"pkgs"] [c!"rel"] pip).2 = .done ∧
    mget (Files.run box.fs (execute box [c!"pkgs"] [c!"rel"] pip).1) [c!"pkgs", c!"pip", c!"23.1.2", c!"package.py"] =
      some (.file c!"name = 'pip'\nversion = '23.1.2'\n\ndescription = 'Python package installer'\n\nrequires = [\n    'python',\n]\n\ntools = [\n    'pip',\n    'pip3',\n]\n\ndef commands():\n    import os\n    env.PATH.prepend('/usr/bin')\n\n") :=
  ⟨by decide +kernel, by decide +kernel⟩

/-- It meets the hypotheses of `C180_command`. -/
example : Quotable c!"pip" ∧ Quotable (toolVersion box c!"pip") ∧
    (detect box c!"pip").bind Tool.exe = some (c!"/usr/bin" ++ '/' :: c!"pip3") :=
  ⟨quotable_dec rfl, quotable_dec (by decide +kernel), by decide +kernel⟩

/-- The quick start on that machine meets the hypotheses. -/
example : (∀ n ∈ quick, toolVersion box n ∈ [c!"1.0.0", c!"22.04", c!"3.11.4", c!"0.1.0", c!"68.0.0", c!"23.1.2"] ∧
      (Version.parse (toolVersion box n)).isSome = true) ∧
    mget (Files.run box.fs (execute box [c!"pkgs"] [c!"rel"] { quickstart := true }).1) [c!"pkgs", c!"os", c!"22.04", c!"package.py"] =
      some (.file c!"name = 'os'\nversion = '22.04'\n\ndescription = 'Operating system package'\n\n") :=
  ⟨by decide +kernel, by decide +kernel⟩

/-- **C182** is false of what it needs: pip is bound with `requires = ['python']`, and Python, which is there, is not bound. -/
theorem C182_dependencies_false : c!"python" ∈ requirements c!"pip" ∧ (detect box c!"python").isSome = true ∧
    (execute box [c!"pkgs"] [c!"rel"] pip).2 = .done ∧
    mget (Files.run box.fs (execute box [c!"pkgs"] [c!"rel"] pip).1) [c!"pkgs", c!"python"] = none :=
  ⟨by decide +kernel, by decide +kernel, by decide +kernel, by decide +kernel⟩

/-- **C182**: to list or to search changes nothing; to list always succeeds, to search if there is a text to search. -/
theorem C182_shows (w : World) (locals releases : Path) (a : Bind.Args) :
    (a.list = true → execute w locals releases a = ([], .done)) ∧
    (a.list = false → a.quickstart = false → a.search = true →
      (execute w locals releases a).1 = [] ∧ ((execute w locals releases a).2 = .done ↔ a.package ≠ none)) := by
  unfold execute
  refine ⟨fun h => by simp [h], fun h1 h2 h3 => ?_⟩
  simp only [h1, h2, h3, Bool.false_eq_true, if_false, if_true, true_and]
  cases a.package <;> simp

/-- **C182** is false of the quick start: pip is bound without what it needs. -/
theorem C182_requires_false : toolFile box true c!"pip" ≠ toolFile box false c!"pip" ∧
    mget (Files.run box.fs (execute box [c!"pkgs"] [c!"rel"] { quickstart := true }).1) [c!"pkgs", c!"pip", c!"23.1.2", c!"package.py"] =
      some (.file (toolFile box true c!"pip")) :=
  ⟨by decide +kernel, by decide +kernel⟩

/-- **C182** is false of the quick start: it succeeds although a package could not be made. -/
theorem C182_quick_false : ∃ fs, mget fs [c!"pkgs", c!"python"] = some (.file []) ∧
    (execute { box with fs } [c!"pkgs"] [c!"rel"] { quickstart := true }).2 = .done ∧
    mget (Files.run fs (execute { box with fs } [c!"pkgs"] [c!"rel"] { quickstart := true }).1)
      [c!"pkgs", c!"python", c!"3.11.4", c!"package.py"] = none :=
  ⟨[([], .dir), ([c!"pkgs"], .dir), ([c!"pkgs", c!"python"], .file [])], by decide +kernel, by decide +kernel, by decide +kernel⟩

/-- **C182** is false of packages that exist: the file of one that was written by hand is replaced, and nothing was said. -/
theorem C182_overwrite_false (w : World) (locals releases : Path) (a : Bind.Args) (spec c : Str) (st : List Step)
    (ha : a.package = some spec) (hl : a.list = false) (hq : a.quickstart = false) (hs : a.search = false)
    (h : execute w locals releases a = (st, .done)) (hn : Component (parseSpec spec).1)
    (hv : Component (toolVersion w (parseSpec spec).1)) (_ : mget w.fs ((if a.release then releases else a.path.getD locals) ++
      [(parseSpec spec).1, toolVersion w (parseSpec spec).1, c!"package.py"]) = some (.file c)) (hc : c ≠ toolFile w a.noDeps (parseSpec spec).1) :
    mget (Files.run w.fs st) ((if a.release then releases else a.path.getD locals) ++
      [(parseSpec spec).1, toolVersion w (parseSpec spec).1, c!"package.py"]) ≠ some (.file c) := by
  rw [(C182_bound w locals releases a spec st ha hl hq hs h hn hv).1]
  simpa using fun h => hc h.symm

/-- Such a package. -/
example : (execute { box with fs := box.fs ++ [([c!"pkgs", c!"pip"], .dir), ([c!"pkgs", c!"pip", c!"23.1.2"], .dir),
      ([c!"pkgs", c!"pip", c!"23.1.2", c!"package.py"], .file c!"name = 'pip'\n")] } [c!"pkgs"] [c!"rel"] pip).2 = .done := by
  decide +kernel

/-! ## C183: the list of what is bound -/

namespace BindLemmas
open FilesLemmas SearchLemmas

theorem mem_names (fs : FS) (p : Path) (f : Str) : f ∈ names fs p ↔ (mget fs (p ++ [f])).isSome = true := by
  have : (mget fs (p ++ [f])) = mget (below fs p) [f] := by rw [below_get]; simp
  rw [this]
  unfold names
  rw [List.mem_filterMap, Option.isSome_iff_exists, mget_isSome_iff, mkeys, List.mem_map]
  constructor
  · rintro ⟨e, he, h⟩
    split at h
    · rename_i hl
      refine ⟨e, he, ?_⟩
      obtain ⟨x, hx⟩ := List.length_eq_one_iff.1 hl
      rw [hx] at h ⊢
      simpa using h
    · cases h
  · rintro ⟨e, he, h⟩
    exact ⟨e, he, by rw [h]; rfl⟩

theorem nodup_names {fs : FS} (h : (mkeys fs).Nodup) (p : Path) : (names fs p).Nodup := by
  have hb := below_nodup h p
  unfold names
  generalize below fs p = l at hb
  induction l with
  | nil => exact List.nodup_nil
  | cons e l ih =>
    rw [mkeys, List.map_cons, List.nodup_cons] at hb
    rw [List.filterMap_cons]
    split
    · exact ih hb.2
    · rename_i x hx
      rw [List.nodup_cons]
      refine ⟨?_, ih hb.2⟩
      intro hm
      obtain ⟨e', he', h'⟩ := List.mem_filterMap.1 hm
      apply hb.1
      rw [List.mem_map]
      refine ⟨e', he', ?_⟩
      split at hx
      · rename_i h1
        split at h'
        · rename_i h2
          obtain ⟨y, hy⟩ := List.length_eq_one_iff.1 h1
          obtain ⟨z, hz⟩ := List.length_eq_one_iff.1 h2
          rw [hy] at hx ⊢
          rw [hz] at h' ⊢
          simp at hx h'
          rw [hx, h']
        · cases h'
      · cases hx

theorem mem_versions (fs : FS) (root : Path) (f v : Str) : v ∈ versionsOf fs root f ↔
    mget fs (root ++ [f, v]) = some .dir ∧ (mget fs (root ++ [f, v, c!"package.py"])).isSome = true := by
  unfold versionsOf
  rw [(sortStr_perm _).mem_iff, List.mem_filter, mem_names]
  simp only [List.append_assoc, List.cons_append, List.nil_append, Bool.and_eq_true, beq_iff_eq]
  constructor
  · exact fun h => h.2
  · exact fun h => ⟨by rw [h.1]; rfl, h⟩

end BindLemmas

/-- **C183**: the list has the families in order, each once; each with all of its versions that have a package, each once, in
order; and no family without such a version. -/
theorem C183_listed (fs : FS) (root : Path) (h : (mkeys fs).Nodup) :
    Spec.Search.Ascending ((listBound fs root).map Prod.fst) ∧
    (∀ e ∈ listBound fs root, mget fs (root ++ [e.1]) = some .dir ∧ e.2 ≠ [] ∧ Spec.Search.Ascending e.2 ∧
      ∀ v, v ∈ e.2 ↔ mget fs (root ++ [e.1, v]) = some .dir ∧ (mget fs (root ++ [e.1, v, c!"package.py"])).isSome = true) ∧
    ∀ f v, mget fs (root ++ [f]) = some .dir → mget fs (root ++ [f, v]) = some .dir →
      (mget fs (root ++ [f, v, c!"package.py"])).isSome = true → ∃ vs, (f, vs) ∈ listBound fs root ∧ v ∈ vs := by
  have hp : (listBound fs root).Perm _ := List.perm_insertionSort (fun a b : Str × List Str => cmpStr a.1 b.1 ≠ .gt) _
  refine ⟨?_, ?_, ?_⟩
  · refine SearchLemmas.ascending_of ?_ ?_
    · rw [List.pairwise_map]
      have : Std.Total fun a b : Str × List Str => cmpStr a.1 b.1 ≠ .gt := ⟨fun a b => by
        have := cmpStr_swap a.1 b.1
        cases h : cmpStr a.1 b.1 <;> rw [h] at this <;> simp_all [Ordering.swap] <;> rw [← this] <;> simp⟩
      have : IsTrans (Str × List Str) fun a b => cmpStr a.1 b.1 ≠ .gt := ⟨fun a b c h1 h2 => by
        have := Std.TransCmp.isLE_trans (cmp := cmpStr) (a := a.1) (b := b.1) (c := c.1)
        exact Ordering.isLE_iff_ne_gt.mp (this (Ordering.isLE_iff_ne_gt.mpr h1) (Ordering.isLE_iff_ne_gt.mpr h2))⟩
      exact List.pairwise_insertionSort _ _
    · rw [(hp.map Prod.fst).nodup_iff, List.map_map]
      rw [show (Prod.fst ∘ fun f => (f, versionsOf fs root f)) = id from rfl, List.map_id]
      exact (nodup_names h root).filter _
  · intro e he
    rw [hp.mem_iff, List.mem_map] at he
    obtain ⟨f, hf, rfl⟩ := he
    rw [List.mem_filter] at hf
    simp only [Bool.and_eq_true, beq_iff_eq, Bool.not_eq_true', List.isEmpty_eq_false_iff] at hf
    refine ⟨hf.2.1, hf.2.2, SearchLemmas.ascending_of (SearchLemmas.sortStr_sorted _) ?_, fun v => mem_versions fs root f v⟩
    show (versionsOf fs root f).Nodup
    unfold versionsOf
    rw [(SearchLemmas.sortStr_perm _).nodup_iff]
    exact (nodup_names h _).filter _
  · intro f v h1 h2 h3
    have hv := (mem_versions fs root f v).2 ⟨h2, h3⟩
    refine ⟨versionsOf fs root f, ?_, hv⟩
    rw [hp.mem_iff, List.mem_map]
    refine ⟨f, ?_, rfl⟩
    rw [List.mem_filter, mem_names]
    refine ⟨by rw [h1]; rfl, ?_⟩
    simp only [Bool.and_eq_true, beq_iff_eq, Bool.not_eq_true', List.isEmpty_eq_false_iff]
    exact ⟨h1, List.ne_nil_of_mem hv⟩

/-- **C183**: what has been bound is listed. -/
theorem C183_bound (w : World) (home : Path) (tool : Str) (o : Bind.Options) (st : List Step) (b : Bind.Bound) (hok : Ok w.fs)
    (h : bind w home tool o = (st, .ok b)) (ht : Component tool) (hv : Component b.version) :
    ∃ vs, (tool, vs) ∈ listBound (Files.run w.fs st) (o.path.getD home) ∧ b.version ∈ vs := by
  obtain ⟨-, -, hpath, -, -, hfile, hd, -⟩ := C179_bound w home tool o st b h ht hv
  rw [hpath] at hd hfile
  refine (C183_listed _ _ (FilesLemmas.nodup_run hok.nodup st)).2.2 tool b.version (hd _ ⟨[b.version], by simp⟩) (hd _ List.prefix_rfl) ?_
  simp only [List.append_assoc, List.cons_append, List.nil_append] at hfile
  rw [hfile]; rfl

/-- Python is listed after it was bound. -/
example : listBound (Files.run machine.fs bound.1) [c!"pkgs"] = [(c!"python3", [c!"3.11.4"])] ∧ (mkeys machine.fs).Nodup :=
  ⟨by decide +kernel, by decide +kernel⟩

/-- **C183** is false of the order of versions: `10.0` comes before `9.0`. -/
theorem C183_order_false : listBound [([c!"cmake"], .dir), ([c!"cmake", c!"9.0"], .dir), ([c!"cmake", c!"10.0"], .dir),
    ([c!"cmake", c!"9.0", c!"package.py"], .file []), ([c!"cmake", c!"10.0", c!"package.py"], .file [])] [] =
      [(c!"cmake", [c!"10.0", c!"9.0"])] := by
  decide +kernel

end Rez.Props
