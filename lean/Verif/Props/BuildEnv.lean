import Verif.Spec.BuildEnv
import Mathlib.Tactic.SplitIfs
import Mathlib.Data.List.Induction
/-!
# C140, C141: where a build installs, and the variables it sees
-/
namespace Rez.Props
open Rez Rez.Build Rez.Build.Spec

/-! ## Lemmas -/

namespace BuildEnvLemmas

theorem mget_insertAll (l : List (Str × Str)) (vars : List (Str × Str)) (k : Str) :
    mget (insertAll vars l) k = (mget l.reverse k).or (mget vars k) := by
  induction l using List.reverseRecOn generalizing vars with
  | nil => simp [insertAll]
  | append_singleton l e ih =>
    unfold insertAll at ih ⊢
    rw [List.foldl_append, List.reverse_append]
    simp only [List.foldl_cons, List.foldl_nil, mget_mset, List.reverse_cons, List.reverse_nil, List.nil_append,
      List.singleton_append, mget]
    by_cases h : k = e.1
    · simp [h]
    · simp [h, Ne.symm h, ih]

theorem mget_append (a b : List (Str × Str)) (k : Str) : mget (a ++ b) k = (mget a k).or (mget b k) := by
  induction a with
  | nil => simp
  | cons e a ih =>
    obtain ⟨x, v⟩ := e
    simp only [List.cons_append, mget]
    split <;> simp [ih]

theorem mget_reverse (l : List (Str × Str)) (h : (mkeys l).Nodup) (k : Str) : mget l.reverse k = mget l k := by
  induction l with
  | nil => rfl
  | cons e l ih =>
    obtain ⟨x, v⟩ := e
    simp only [mkeys, List.map_cons, List.nodup_cons] at h
    rw [List.reverse_cons, mget_append, ih h.2]
    simp only [mget]
    by_cases hx : x = k
    · subst hx
      have : mget l x = none := (mget_none_iff l x).2 h.1
      simp [this]
    · simp [hx]

theorem get_insert (l vars : List (Str × Str)) (h : (mkeys l).Nodup) (k : Str) :
    mget (insertAll vars l) k = (mget l k).or (mget vars k) := by rw [mget_insertAll, mget_reverse l h]

theorem firstIn_cons (t : List (Str × Str)) (ts : List (List (Str × Str))) (k : Str) :
    firstIn (t :: ts) k = (mget t k).or (firstIn ts k) := by
  unfold firstIn
  rw [List.findSome?_cons]
  cases mget t k <;> rfl

theorem or_swap (a b : List (Str × Str)) (h : ∀ x ∈ mkeys a, x ∉ mkeys b) (k : Str) :
    (mget a k).or (mget b k) = mget (b ++ a) k := by
  rw [mget_append]
  cases ha : mget a k with
  | none => cases mget b k <;> rfl
  | some v =>
    have : mget b k = none := by
      rw [mget_none_iff]
      refine h k ?_
      by_contra hc
      rw [(mget_none_iff a k).2 hc] at ha
      cases ha
    rw [this]
    rfl

theorem pjoin_plain {a b : Str} (ha : DirText a) (hb : '/' ∉ b) : pjoin a b = sub a b := by
  have : b.head? ≠ some '/' := by
    intro h
    exact hb (List.mem_of_head? h)
  simp [pjoin, sub, this, ha.1, ha.2]

theorem dir_sub {a b : Str} (hb : Plain b) : DirText (sub a b) := by
  refine ⟨by simp [sub], ?_⟩
  intro h
  have : (sub a b).getLast? = b.getLast? := by
    unfold sub
    cases b with
    | nil => exact absurd rfl hb.1
    | cons c b => simp [List.getLast?_append, List.getLast?_cons]
  rw [this] at h
  exact hb.2 (List.mem_of_getLast? h)

theorem sub_inj {a b c d : Str} (hb : '/' ∉ b) (hd : '/' ∉ d) (h : sub a b = sub c d) : a = c ∧ b = d := by
  unfold sub at h
  have hr := congrArg List.reverse h
  simp only [List.reverse_append, List.reverse_cons, List.append_assoc, List.singleton_append] at hr
  have key : ∀ (x y u v : Str), '/' ∉ x → '/' ∉ y → x ++ '/' :: u = y ++ '/' :: v → x = y ∧ u = v := by
    intro x
    induction x with
    | nil =>
      intro y u v _ hy e
      cases y with
      | nil => simpa using e
      | cons c y => simp at e; exact absurd e.1 (by intro h; exact hy (h ▸ List.mem_cons_self))
    | cons c x ih =>
      intro y u v hx hy e
      cases y with
      | nil => simp at e; exact absurd e.1.symm (by intro h; exact hx (h ▸ List.mem_cons_self))
      | cons c' y =>
        simp at e hx hy
        obtain ⟨h1, h2⟩ := ih y u v (by simp [hx.2]) (by simp [hy.2]) e.2
        exact ⟨by rw [e.1, h1], h2⟩
  obtain ⟨h1, h2⟩ := key b.reverse d.reverse a.reverse c.reverse (by simpa using hb) (by simpa using hd) hr
  exact ⟨List.reverse_inj.1 h2, List.reverse_inj.1 h1⟩

/-- The environment before the variant: its directories and variables. -/
theorem fresh_some {m : Machine} {s : Settings} {r : Request} {base : Str} {e : Env} (h : freshEnv m s r base = some e) :
    ∃ root, normalize m base = some root ∧ e.buildDir = pjoin root r.package.name ∧
      e.installDir = (match r.installPath with
        | some i => pjoin (pjoin i r.package.name) r.package.versionText
        | none => pjoin e.buildDir c!"install") ∧
      e.tempDir = pjoin e.buildDir c!"tmp" := by
  unfold freshEnv withInstallPath at h
  cases hn : normalize m base with
  | none => simp [hn] at h
  | some root =>
    simp only [hn, Option.map_some, Option.some.injEq] at h
    subst h
    refine ⟨root, rfl, rfl, ?_, rfl⟩
    simp only [Env.override, Env.setSource]
    cases r.installPath <;> rfl

/-- The directories of a build. -/
theorem build_some {m : Machine} {s : Settings} {r : Request} {e : Env} (h : buildEnv m s r = some e) :
    ∃ base, (∃ e0, freshEnv m s r base = some e0 ∧ e.buildDir = e0.buildDir ∧ e.installDir = e0.installDir ∧
        e.tempDir = e0.tempDir) ∧
      ((r.variantIndex = none ∨ r.variantRequires = none) ∧ base = s.buildDir ∨
        ∃ i reqs e1, r.variantIndex = some i ∧ r.variantRequires = some reqs ∧ freshEnv m s r s.buildDir = some e1 ∧
          base = pjoin e1.installDir (m.hash reqs)) := by
  unfold buildEnv at h
  cases h1 : freshEnv m s r s.buildDir with
  | none => simp [h1] at h
  | some e1 =>
    simp only [h1, Option.bind_some] at h
    cases hi : r.variantIndex with
    | none =>
      simp only [hi, Option.some.injEq] at h
      subst h
      exact ⟨s.buildDir, ⟨e1, h1, rfl, rfl, rfl⟩, Or.inl ⟨Or.inl rfl, rfl⟩⟩
    | some i =>
      simp only [hi] at h
      cases hr : r.variantRequires with
      | none =>
        simp only [hr, Option.some.injEq] at h
        subst h
        exact ⟨s.buildDir, ⟨e1, h1, rfl, rfl, rfl⟩, Or.inl ⟨Or.inr rfl, rfl⟩⟩
      | some reqs =>
        simp only [hr] at h
        cases h2 : freshEnv m s r (pjoin e1.installDir (m.hash reqs)) with
        | none => simp [h2] at h
        | some e2 =>
          simp only [h2, Option.map_some, Option.some.injEq] at h
          subst h
          exact ⟨_, ⟨e2, h2, rfl, rfl, rfl⟩, Or.inr ⟨i, reqs, e1, rfl, rfl, rfl, rfl⟩⟩

/-- What the directory of an installation is. -/
theorem installed_dir {m : Machine} {s : Settings} {r : Request} {e : Env} {i : Str} (h : buildEnv m s r = some e)
    (hi : r.installPath = some i) : e.installDir = pjoin (pjoin i r.package.name) r.package.versionText := by
  obtain ⟨base, ⟨e0, h0, _, hinst, _⟩, _⟩ := build_some h
  obtain ⟨root, _, _, h3, _⟩ := fresh_some h0
  rw [hinst, h3, hi]

end BuildEnvLemmas
open BuildEnvLemmas

/-! ## C140: the directories -/

/-- The version under which a package is installed. -/
def shownVersion (p : Pack) : Str := match p.version with | some v => v | none => c!"0.0.0"

theorem versionText_eq (p : Pack) : p.versionText = shownVersion p := by
  unfold Pack.versionText shownVersion
  cases p.version <;> rfl

/-- C140: a build that installs does so in the directory `<path>/<name>/<version>`. -/
theorem C140_installed (m : Machine) (s : Settings) (r : Request) (e : Env) (i : Str) (h : buildEnv m s r = some e)
    (hi : r.installPath = some i) (hd : DirText i) (hn : Plain r.package.name) (hv : Plain (shownVersion r.package)) :
    e.installDir = sub (sub i r.package.name) (shownVersion r.package) := by
  rw [installed_dir h hi, versionText_eq, pjoin_plain hd hn.2, pjoin_plain (dir_sub hn) hv.2]

/-- C140: two builds that install in the same place install the same version of the same package. -/
theorem C140_separate (m : Machine) (s : Settings) (r1 r2 : Request) (e1 e2 : Env) (i1 i2 : Str)
    (h1 : buildEnv m s r1 = some e1) (h2 : buildEnv m s r2 = some e2)
    (hi1 : r1.installPath = some i1) (hi2 : r2.installPath = some i2) (hd1 : DirText i1) (hd2 : DirText i2)
    (hn1 : Plain r1.package.name) (hn2 : Plain r2.package.name)
    (hv1 : Plain (shownVersion r1.package)) (hv2 : Plain (shownVersion r2.package))
    (he : e1.installDir = e2.installDir) :
    i1 = i2 ∧ r1.package.name = r2.package.name ∧ shownVersion r1.package = shownVersion r2.package := by
  rw [C140_installed m s r1 e1 i1 h1 hi1 hd1 hn1 hv1, C140_installed m s r2 e2 i2 h2 hi2 hd2 hn2 hv2] at he
  obtain ⟨ha, hb⟩ := sub_inj hv1.2 hv2.2 he
  obtain ⟨hc, hd⟩ := sub_inj hn1.2 hn2.2 ha
  exact ⟨hc, hd, hb⟩

/-- What a build without variants does below the directory it builds in. -/
theorem built_below {m : Machine} {s : Settings} {r : Request} {e : Env} {root : Str} (h : buildEnv m s r = some e)
    (hv : r.variantIndex = none) (hr : normalize m s.buildDir = some root) (hs : DirText root) (hn : Plain r.package.name) :
    e.buildDir = sub root r.package.name ∧ e.tempDir = sub (sub root r.package.name) c!"tmp" ∧
      (r.installPath = none → e.installDir = sub (sub root r.package.name) c!"install") := by
  obtain ⟨base, ⟨e0, h0, hb, hinst, ht⟩, hbase⟩ := build_some h
  obtain ⟨root', hr', h2, h3, h4⟩ := fresh_some h0
  have hbase : base = s.buildDir := by
    rcases hbase with ⟨_, hx⟩ | ⟨i, reqs, e1, hx, _⟩
    · exact hx
    · rw [hv] at hx; cases hx
  subst hbase
  have hroot : root' = root := by rw [hr] at hr'; exact (Option.some.inj hr').symm
  subst hroot
  rw [pjoin_plain hs hn.2] at h2
  refine ⟨by rw [hb, h2], ?_, fun hi => ?_⟩
  · rw [ht, h4, h2, pjoin_plain (dir_sub hn) (by decide)]
  · rw [hinst, h3, hi]
    simp only
    rw [h2, pjoin_plain (dir_sub hn) (by decide)]

/-- A build without variants: what it builds is in the build directory, and without an install path so is what it installs. -/
theorem C140_built (m : Machine) (s : Settings) (r : Request) (e : Env) (h : buildEnv m s r = some e)
    (hv : r.variantIndex = none) (hd : s.buildDir.head? = some '/') (hc : (s.buildDir.drop 1).head? ≠ some ':')
    (hs : DirText s.buildDir) (hn : Plain r.package.name) :
    e.buildDir = sub s.buildDir r.package.name ∧ e.tempDir = sub (sub s.buildDir r.package.name) c!"tmp" ∧
      (r.installPath = none → e.installDir = sub (sub s.buildDir r.package.name) c!"install") := by
  refine built_below h hv ?_ hs hn
  unfold normalize
  obtain ⟨x, hx⟩ : ∃ x, s.buildDir = '/' :: x := by
    cases hl : s.buildDir with
    | nil => rw [hl] at hd; cases hd
    | cons c x => rw [hl] at hd; simp at hd; exact ⟨x, by rw [hd]⟩
  rw [if_neg (by rw [hx]; simp [List.isPrefixOf]), if_neg (by rw [hx]; simp [List.isPrefixOf]), if_neg hc, if_pos hd]

/-- C140: a build directory that starts at the home directory is below it. -/
theorem C140_built_home (m : Machine) (s : Settings) (r : Request) (e : Env) (home d : Str) (h : buildEnv m s r = some e)
    (hv : r.variantIndex = none) (hm : m.home = some home) (hb : s.buildDir = c!"~/" ++ d) (hh : DirText home)
    (hd : DirText d) (hd' : d.head? ≠ some '/') (hn : Plain r.package.name) :
    e.buildDir = sub (sub home d) r.package.name ∧ e.tempDir = sub (sub (sub home d) r.package.name) c!"tmp" ∧
      (r.installPath = none → e.installDir = sub (sub (sub home d) r.package.name) c!"install") := by
  refine built_below h hv ?_ ?_ hn
  · have e1 : List.isPrefixOf c!"~/" (c!"~/" ++ d) = true := by rw [List.isPrefixOf_iff_prefix]; exact List.prefix_append _ _
    unfold normalize
    rw [hb, if_pos e1, hm]
    simp [pjoin, sub, hd', hh.1, hh.2]
  · refine ⟨by simp [sub], ?_⟩
    have : (sub home d).getLast? = d.getLast? := by
      unfold sub
      cases hl : d with
      | nil => exact absurd hl hd.1
      | cons c b => simp [List.getLast?_append, List.getLast?_cons]
    rw [this]
    exact hd.2

/-- C140: any other build directory is below the directory the build was started in. -/
theorem C140_built_relative (m : Machine) (s : Settings) (r : Request) (e : Env) (h : buildEnv m s r = some e)
    (hv : r.variantIndex = none) (h1 : s.buildDir.head? ∉ [some '/', some '\\', some '~'])
    (hc : (s.buildDir.drop 1).head? ≠ some ':') (hs : DirText s.buildDir) (hw : DirText m.cwd)
    (hn : Plain r.package.name) :
    e.buildDir = sub (sub m.cwd s.buildDir) r.package.name ∧
      e.tempDir = sub (sub (sub m.cwd s.buildDir) r.package.name) c!"tmp" ∧
      (r.installPath = none → e.installDir = sub (sub (sub m.cwd s.buildDir) r.package.name) c!"install") := by
  simp only [List.mem_cons, List.not_mem_nil, or_false, not_or] at h1
  refine built_below h hv ?_ ?_ hn
  · have key : ∀ (c : Char) (l : Str), s.buildDir.head? ≠ some c → ¬ (c :: l).isPrefixOf s.buildDir := by
      intro c l hne hp
      cases hl : s.buildDir with
      | nil => rw [hl] at hp; cases hp
      | cons x y =>
        rw [hl] at hp hne
        simp [List.isPrefixOf] at hp hne
        exact hne hp.1.symm
    unfold normalize
    rw [if_neg (key _ _ h1.2.2), if_neg (key _ _ h1.2.1), if_neg hc, if_neg h1.1]
    simp [pjoin, sub, h1.1, hw.1, hw.2]
  · refine ⟨by simp [sub], ?_⟩
    have : (sub m.cwd s.buildDir).getLast? = s.buildDir.getLast? := by
      unfold sub
      cases hl : s.buildDir with
      | nil => exact absurd hl hs.1
      | cons c b => simp [List.getLast?_append, List.getLast?_cons]
    rw [this]
    exact hs.2

/-- C140: a build in a directory `d` of its own for each variant, where the package is not installed elsewhere: variants
with different hashes are built and installed in different directories. -/
theorem C140_variants_partial (m : Machine) (s : Settings) (r1 r2 : Request) (e1 e2 : Env) (i1 i2 : Nat)
    (q1 q2 : List Str) (h1 : buildEnv m s r1 = some e1) (h2 : buildEnv m s r2 = some e2)
    (hp : r1.package = r2.package) (hi1 : r1.installPath = none) (hi2 : r2.installPath = none)
    (hv1 : r1.variantIndex = some i1) (hv2 : r2.variantIndex = some i2)
    (hq1 : r1.variantRequires = some q1) (hq2 : r2.variantRequires = some q2)
    (hh1 : Plain (m.hash q1)) (hh2 : Plain (m.hash q2)) (hne : m.hash q1 ≠ m.hash q2)
    (hd : s.buildDir.head? = some '/') (hc : (s.buildDir.drop 1).head? ≠ some ':') (hs : DirText s.buildDir)
    (hn : Plain r1.package.name) :
    e1.installDir ≠ e2.installDir ∧ e1.buildDir ≠ e2.buildDir := by
  have key : ∀ (r : Request) (e : Env) (i : Nat) (q : List Str), buildEnv m s r = some e → r.installPath = none →
      r.variantIndex = some i → r.variantRequires = some q → Plain (m.hash q) → Plain r.package.name →
      e.buildDir = sub (sub (sub (sub s.buildDir r.package.name) c!"install") (m.hash q)) r.package.name ∧
      e.installDir = sub e.buildDir c!"install" := by
    intro r e i q h hi hv hq hh hn
    obtain ⟨x, hx⟩ : ∃ x, s.buildDir = '/' :: x := by
      cases hl : s.buildDir with
      | nil => rw [hl] at hd; cases hd
      | cons c x => rw [hl] at hd; simp at hd; exact ⟨x, by rw [hd]⟩
    have hnorm : ∀ t : Str, DirText s.buildDir → normalize m (s.buildDir ++ t) =
        if ((s.buildDir ++ t).drop 1).head? = some ':' then (none : Option Str) else some (s.buildDir ++ t) := by
      intro t _
      unfold normalize
      rw [hx]
      simp [List.isPrefixOf, isAlpha]
    obtain ⟨base, ⟨e0, h0, hb, hinst, ht⟩, hbase⟩ := build_some h
    obtain ⟨root, hr, h3, h4, _⟩ := fresh_some h0
    rcases hbase with ⟨hx', _⟩ | ⟨i', q', e1', hx1, hx2, hx3, hx4⟩
    · rcases hx' with hx' | hx'
      · rw [hv] at hx'; cases hx'
      · rw [hq] at hx'; cases hx'
    · rw [hq] at hx2
      cases hx2
      obtain ⟨root1, hr1, g2, g3, _⟩ := fresh_some hx3
      have hroot1 : root1 = s.buildDir := by
        have := hnorm [] hs
        rw [List.append_nil, if_neg hc] at this
        rw [this] at hr1
        simpa using hr1.symm
      subst hroot1
      rw [hi] at g3
      simp only at g3
      rw [g2, pjoin_plain hs hn.2, pjoin_plain (dir_sub hn) (by decide)] at g3
      have hplain : Plain c!"install" := ⟨by decide, by decide⟩
      rw [g3, pjoin_plain (dir_sub hplain) hh.2] at hx4
      have hroot : root = base := by
        have hbt : ∃ t, base = s.buildDir ++ t := ⟨'/' :: r.package.name ++ '/' :: c!"install" ++ '/' :: m.hash q, by
          rw [hx4]; simp [sub]⟩
        obtain ⟨t, ht'⟩ := hbt
        have h5 := hnorm t hs
        rw [← ht', hr] at h5
        by_cases hcol : (base.drop 1).head? = some ':'
        · rw [if_pos hcol] at h5; cases h5
        · rw [if_neg hcol] at h5; simpa using h5
      rw [hroot, hx4, pjoin_plain (dir_sub hh) hn.2] at h3
      refine ⟨by rw [hb, h3], ?_⟩
      rw [hinst, h4, hi]
      simp only
      rw [hb, h3, pjoin_plain (dir_sub hn) (by decide)]
  obtain ⟨a1, b1⟩ := key r1 e1 i1 q1 h1 hi1 hv1 hq1 hh1 hn
  obtain ⟨a2, b2⟩ := key r2 e2 i2 q2 h2 hi2 hv2 hq2 hh2 (hp ▸ hn)
  have hbne : e1.buildDir ≠ e2.buildDir := by
    intro he
    rw [a1, a2] at he
    obtain ⟨he, _⟩ := sub_inj hn.2 (hp ▸ hn).2 he
    exact hne (sub_inj hh1.2 hh2.2 he).2
  refine ⟨fun he => ?_, hbne⟩
  rw [b1, b2] at he
  exact hbne (sub_inj (by decide) (by decide) he).1

/-- Two variants of one package. -/
def demoRequest (i : Option Nat) (q : Option (List Str)) (install : Option Str) : Request :=
  ⟨⟨c!"tool", some c!"1.0", [], none, [c!"python-3"], [], [], [[c!"gcc-9"], [c!"gcc-11"]]⟩, none, c!"/src/tool", i, q, [], install⟩

/-- A machine whose hash of the requirements is the first of them. -/
def demoMachine : Machine :=
  ⟨some c!"/home/u", c!"/src/tool", c!"8", fun _ => false, fun s => s.takeWhile (· != '-'), fun l => l.headD c!"none",
   fun n => decimal n⟩

def demoSettings : Settings := ⟨c!"/work", []⟩

example : ∃ e1 e2, buildEnv demoMachine demoSettings (demoRequest (some 0) (some [c!"gcc-9"]) none) = some e1 ∧
    buildEnv demoMachine demoSettings (demoRequest (some 1) (some [c!"gcc-11"]) none) = some e2 ∧
    e1.installDir = c!"/work/tool/install/gcc-9/tool/install" ∧ e2.installDir = c!"/work/tool/install/gcc-11/tool/install" :=
  ⟨_, _, rfl, rfl, by decide +kernel, by decide +kernel⟩

example : ∃ e, buildEnv demoMachine demoSettings (demoRequest none none (some c!"/packages")) = some e ∧
    e.installDir = c!"/packages/tool/1.0" ∧ e.buildDir = c!"/work/tool" ∧ DirText c!"/packages" ∧ Plain c!"tool" :=
  ⟨_, rfl, by decide +kernel, by decide +kernel, ⟨by decide, by decide⟩, ⟨by decide, by decide⟩⟩

/-- C140 is false of variants that are installed: whatever the hash, they all go to one directory, and each build
overwrites what the one before installed. -/
theorem C140_variants_share (m : Machine) (s : Settings) (r1 r2 : Request) (e1 e2 : Env)
    (h1 : buildEnv m s r1 = some e1) (h2 : buildEnv m s r2 = some e2) (hp : r1.package = r2.package)
    (hi : r1.installPath = r2.installPath) (his : r1.installPath.isSome) : e1.installDir = e2.installDir := by
  obtain ⟨i, hi1⟩ := Option.isSome_iff_exists.1 his
  rw [installed_dir h1 hi1, installed_dir h2 (hi ▸ hi1), hp]

/-- C140: not every two variants of a package are installed in different directories. -/
theorem C140_variants_false : ¬ ∀ (m : Machine) (s : Settings) (r1 r2 : Request) (e1 e2 : Env) (q1 q2 : List Str),
    buildEnv m s r1 = some e1 → buildEnv m s r2 = some e2 → r1.package = r2.package → r1.installPath = r2.installPath →
    r1.variantRequires = some q1 → r2.variantRequires = some q2 → m.hash q1 ≠ m.hash q2 →
    e1.installDir ≠ e2.installDir := by
  intro h
  have h1 := h demoMachine demoSettings (demoRequest (some 0) (some [c!"gcc-9"]) (some c!"/packages"))
    (demoRequest (some 1) (some [c!"gcc-11"]) (some c!"/packages")) _ _ _ _ rfl rfl rfl rfl rfl rfl (by decide)
  exact h1 (C140_variants_share demoMachine demoSettings
    (demoRequest (some 0) (some [c!"gcc-9"]) (some c!"/packages"))
    (demoRequest (some 1) (some [c!"gcc-11"]) (some c!"/packages")) _ _ rfl rfl rfl rfl rfl)

/-- C140: nor does the building go on outside of the package repository: that of a variant is in a directory of the
installed package. -/
theorem C140_outside_false : ¬ ∀ (m : Machine) (s : Settings) (r : Request) (e : Env) (i : Str),
    buildEnv m s r = some e → r.installPath = some i → ¬ i.isPrefixOf s.buildDir → ¬ i.isPrefixOf e.buildDir := by
  intro h
  exact h demoMachine demoSettings (demoRequest (some 0) (some [c!"gcc-9"]) (some c!"/packages")) _ _ rfl rfl
    (by decide +kernel) (by decide +kernel)

/-- C140: a path that starts at the home directory is taken as it is: the package is installed in a directory `~` of the
current directory, while it is built below the home directory. -/
theorem C140_home_false : ¬ ∀ (m : Machine) (s : Settings) (r : Request) (e : Env) (h : Str),
    buildEnv m s r = some e → m.home = some h → r.installPath = some c!"~/packages" →
    h.isPrefixOf e.installDir := by
  intro h
  have := h demoMachine demoSettings (demoRequest none none (some c!"~/packages")) _ _ rfl rfl rfl
  revert this
  decide +kernel

example : ∃ e, buildEnv demoMachine ⟨c!"~/b", []⟩ (demoRequest none none none) = some e ∧
    e.buildDir = c!"/home/u/b/tool" ∧ DirText c!"/home/u" ∧ DirText c!"b" :=
  ⟨_, rfl, by decide +kernel, ⟨by decide, by decide⟩, ⟨by decide, by decide⟩⟩

example : ∃ e, buildEnv demoMachine ⟨c!"build", []⟩ (demoRequest none none none) = some e ∧
    e.buildDir = c!"/src/tool/build/tool" ∧ DirText demoMachine.cwd ∧ DirText c!"build" ∧
    (c!"build").head? ∉ [some '/', some '\\', some '~'] :=
  ⟨_, rfl, by decide +kernel, ⟨by decide, by decide⟩, ⟨by decide, by decide⟩, by decide⟩

/-- C140: nothing checks the name.  A package whose name starts with a slash is built and installed wherever its name
says, whatever the directories given. -/
theorem C140_name_outside (m : Machine) (s : Settings) (r : Request) (e : Env) (i n : Str) (h : buildEnv m s r = some e)
    (hi : r.installPath = some i) (hn : r.package.name = '/' :: n) (hd : DirText ('/' :: n))
    (hv : Plain (shownVersion r.package)) :
    e.installDir = sub ('/' :: n) (shownVersion r.package) ∧ e.buildDir = '/' :: n := by
  refine ⟨?_, ?_⟩
  · rw [installed_dir h hi, hn, versionText_eq]
    have : pjoin i ('/' :: n) = '/' :: n := by simp [pjoin]
    rw [this, pjoin_plain hd hv.2]
  · obtain ⟨base, ⟨e0, h0, hb, _, _⟩, _⟩ := build_some h
    obtain ⟨root, _, h2, _, _⟩ := fresh_some h0
    rw [hb, h2, hn]
    simp [pjoin]

/-- C140: not every package is installed below the install path. -/
theorem C140_name_false : ¬ ∀ (m : Machine) (s : Settings) (r : Request) (e : Env) (i : Str),
    buildEnv m s r = some e → r.installPath = some i → i.isPrefixOf e.installDir := by
  intro h
  have := h demoMachine demoSettings
    { demoRequest none none (some c!"/packages") with package := ⟨c!"/etc/x", none, [], none, [], [], [], []⟩ } _ _ rfl rfl
  revert this
  decide +kernel

example : ∃ e, buildEnv demoMachine demoSettings
    { demoRequest none none (some c!"/packages") with package := ⟨c!"/etc/x", none, [], none, [], [], [], []⟩ } = some e ∧
    e.installDir = c!"/etc/x/0.0.0" := ⟨_, rfl, by decide +kernel⟩

/-! ## C141: the variables -/

/-- C141: the value of every variable of a build.  In this order, the first that sets it wins: the variant, the options of
the request, the configuration, the source, the resolved context, the standard. -/
theorem C141_variables (m : Machine) (s : Settings) (r : Request) (e : Env) (hm : Maps s r)
    (h : buildEnv m s r = some e) (k : Str) :
    ∃ f, DeclaredIn m r f ∧
      mget e.vars k = firstIn [variantTable m r.package r.variantIndex r.variantRequires, r.env, s.env, sourceTable r f,
        r.context.getD [], standardTable m r e.buildDir e.installDir] k := by
  have hfile : DeclaredIn m r (projectFile m r.package r.sourceDir) := by
    unfold DeclaredIn projectFile
    cases r.package.filepath with
    | some g => rfl
    | none =>
      simp only [List.map_cons, List.map_nil, List.find?_cons, List.find?_nil, Option.getD_none]
      cases m.exists_ (pjoin r.sourceDir c!"package.py") <;>
        cases m.exists_ (pjoin r.sourceDir c!"package.yaml") <;>
          cases m.exists_ (pjoin r.sourceDir c!"package.yml") <;> simp
  have hfresh : ∀ (base : Str) (e0 : Env), freshEnv m s r base = some e0 →
      mget e0.vars k = firstIn [r.env, s.env, sourceTable r (projectFile m r.package r.sourceDir), r.context.getD [],
        standardTable m r e0.buildDir e0.installDir] k := by
    intro base e0 h0
    unfold freshEnv withInstallPath at h0
    cases hn : normalize m base with
    | none => simp [hn] at h0
    | some root =>
      simp only [hn, Option.map_some, Option.some.injEq] at h0
      subst h0
      simp only [Env.override, Env.setSource, setBuildRequirements]
      rw [get_insert _ _ hm.2.1, get_insert _ _ hm.1,
        get_insert _ _ (by simp only [mkeys, List.map_cons, List.map_nil]; decide +kernel), get_insert _ _ hm.2.2,
        get_insert _ _ (by simp only [mkeys, List.map_cons, List.map_nil]; decide +kernel),
        get_insert _ _ (by simp only [mkeys, List.map_cons, List.map_nil]; decide +kernel), mget_nil, Option.or_none,
        or_swap _ _ (by simp only [mkeys, List.map_cons, List.map_nil]; decide +kernel)]
      simp only [firstIn_cons, sourceTable]
      have hlast : ∀ a b c d e1 : Option Str, a.or (b.or (c.or (d.or e1))) = a.or (b.or (c.or (d.or (e1.or none)))) := by
        intro a b c d e1; rw [Option.or_none]
      rw [hlast]
      congr 6
      simp only [standardTable, List.append_nil, List.cons_append, List.nil_append, versionText_eq, shownVersion]
      cases r.installPath <;> rfl
  refine ⟨_, hfile, ?_⟩
  obtain ⟨base, ⟨e0, h0, _, _, _⟩, _⟩ := build_some h
  rw [firstIn_cons]
  unfold buildEnv at h
  cases h1 : freshEnv m s r s.buildDir with
  | none => simp [h1] at h
  | some e1 =>
    simp only [h1, Option.bind_some] at h
    cases hi : r.variantIndex with
    | none =>
      simp only [hi, Option.some.injEq] at h
      subst h
      exact hfresh _ _ h1
    | some i =>
      simp only [hi] at h
      have hv : ∀ (e2 : Env) (q : List Str), mget (e2.setVariant m r.package i q).vars k =
          (mget (variantTable m r.package (some i) (some q)).tail k).or (mget e2.vars k) := by
        intro e2 q
        simp only [Env.setVariant, setBuildRequirements]
        rw [get_insert _ _ (by simp only [mkeys, List.map_cons, List.map_nil]; decide +kernel),
          get_insert _ _ (by simp only [mkeys, List.map_cons, List.map_nil]; decide +kernel), ← Option.or_assoc,
          or_swap _ _ (by simp only [mkeys, List.map_cons, List.map_nil]; decide +kernel)]
        rfl
      cases hr : r.variantRequires with
      | none =>
        simp only [hr, Option.some.injEq] at h
        subst h
        rw [hv, hfresh _ _ h1]
        rfl
      | some reqs =>
        simp only [hr] at h
        cases h2 : freshEnv m s r (pjoin e1.installDir (m.hash reqs)) with
        | none => simp [h2] at h
        | some e2 =>
          simp only [h2, Option.map_some, Option.some.injEq] at h
          subst h
          simp only [Env.setSubpath, mget_mset]
          rw [hv, hfresh _ _ h2]
          simp only [variantTable, List.cons_append, List.nil_append, List.tail_cons, mget, Option.getD_some]
          by_cases hk : k = c!"REZ_BUILD_VARIANT_SUBPATH"
          · subst hk; rfl
          · rw [if_neg hk, if_neg (Ne.symm hk)]
            rfl

example : Maps demoSettings (demoRequest (some 1) (some [c!"gcc-11"]) (some c!"/packages")) ∧
    ∃ e, buildEnv demoMachine demoSettings (demoRequest (some 1) (some [c!"gcc-11"]) (some c!"/packages")) = some e ∧
      mget e.vars c!"REZ_BUILD_VARIANT_INDEX" = some c!"1" ∧
      mget e.vars c!"REZ_BUILD_REQUIRES_UNVERSIONED" = some c!"python gcc" ∧
      mget e.vars c!"REZ_BUILD_INSTALL_PATH" = some c!"/packages/tool/1.0" ∧ mget e.vars c!"HOME" = none :=
  ⟨⟨by decide, by decide, by decide⟩, _, rfl, by decide +kernel, by decide +kernel, by decide +kernel, by decide +kernel⟩

/-- C141: a variable that the request sets has that value in the build, but for the five of the variant. -/
theorem C141_options_partial (m : Machine) (s : Settings) (r : Request) (e : Env) (hm : Maps s r)
    (h : buildEnv m s r = some e) (k v : Str) (hk : mget r.env k = some v)
    (hn : k ∉ [c!"REZ_BUILD_VARIANT_INDEX", c!"REZ_BUILD_VARIANT_REQUIRES", c!"REZ_BUILD_VARIANT_SUBPATH",
      c!"REZ_BUILD_REQUIRES", c!"REZ_BUILD_REQUIRES_UNVERSIONED"]) : mget e.vars k = some v := by
  obtain ⟨f, _, hf⟩ := C141_variables m s r e hm h k
  rw [hf, firstIn_cons, firstIn_cons, hk]
  have : mget (variantTable m r.package r.variantIndex r.variantRequires) k = none := by
    rw [mget_none_iff]
    intro hc
    apply hn
    unfold variantTable at hc
    cases hi : r.variantIndex with
    | none => rw [hi] at hc; simp [mkeys] at hc
    | some i =>
      rw [hi] at hc
      cases hr : r.variantRequires with
      | none =>
        rw [hr] at hc
        simp only [mkeys, List.nil_append, List.map_cons, List.map_nil, List.mem_cons, List.not_mem_nil, or_false] at hc ⊢
        tauto
      | some q =>
        rw [hr] at hc
        simp only [mkeys, List.cons_append, List.nil_append, List.map_cons, List.map_nil, List.mem_cons,
          List.not_mem_nil, or_false] at hc ⊢
        tauto
  rw [this]
  rfl

/-- C141: the variables of the variant cannot be set by the request. -/
theorem C141_options_false : ¬ ∀ (m : Machine) (s : Settings) (r : Request) (e : Env) (k v : Str), Maps s r →
    buildEnv m s r = some e → mget r.env k = some v → mget e.vars k = some v := by
  intro h
  have := h demoMachine demoSettings
    { demoRequest (some 1) (some [c!"gcc-11"]) none with env := [(c!"REZ_BUILD_REQUIRES", c!"mine")] } _
    c!"REZ_BUILD_REQUIRES" c!"mine" ⟨by decide, by decide, by decide⟩ rfl (by decide)
  revert this
  decide +kernel

/-- C141: the build is told the directories that it has, unless the request, the configuration or the context says
otherwise. -/
theorem C141_directories_partial (m : Machine) (s : Settings) (r : Request) (e : Env) (hm : Maps s r)
    (h : buildEnv m s r = some e) (ho : ∀ k ∈ [c!"REZ_BUILD_INSTALL_PATH", c!"REZ_BUILD_PATH"],
      mget r.env k = none ∧ mget s.env k = none ∧ mget (r.context.getD []) k = none) :
    mget e.vars c!"REZ_BUILD_INSTALL_PATH" = some e.installDir ∧ mget e.vars c!"REZ_BUILD_PATH" = some e.buildDir := by
  have hv : ∀ k ∈ [c!"REZ_BUILD_INSTALL_PATH", c!"REZ_BUILD_PATH"],
      mget (variantTable m r.package r.variantIndex r.variantRequires) k = none := by
    intro k hk
    rw [mget_none_iff]
    simp only [List.mem_cons, List.not_mem_nil, or_false] at hk
    unfold variantTable
    cases r.variantIndex with
    | none => simp [mkeys]
    | some i =>
      cases r.variantRequires with
      | none => rcases hk with hk | hk <;> subst hk <;>
          simp only [mkeys, List.nil_append, List.map_cons, List.map_nil] <;> decide +kernel
      | some q => rcases hk with hk | hk <;> subst hk <;>
          simp only [mkeys, List.cons_append, List.nil_append, List.map_cons, List.map_nil] <;> decide +kernel
  constructor
  · obtain ⟨f, _, hf⟩ := C141_variables m s r e hm h c!"REZ_BUILD_INSTALL_PATH"
    obtain ⟨h1, h2, h3⟩ := ho c!"REZ_BUILD_INSTALL_PATH" (by simp)
    rw [hf]
    simp only [firstIn_cons, hv c!"REZ_BUILD_INSTALL_PATH" (by simp), h1, h2, h3, Option.none_or]
    simp [sourceTable, standardTable, mget]
  · obtain ⟨f, _, hf⟩ := C141_variables m s r e hm h c!"REZ_BUILD_PATH"
    obtain ⟨h1, h2, h3⟩ := ho c!"REZ_BUILD_PATH" (by simp)
    rw [hf]
    simp only [firstIn_cons, hv c!"REZ_BUILD_PATH" (by simp), h1, h2, h3, Option.none_or]
    simp [sourceTable, standardTable, mget]

/-- C141: a variable can hide the directory in which the build installs. -/
theorem C141_directories_false : ¬ ∀ (m : Machine) (s : Settings) (r : Request) (e : Env), Maps s r →
    buildEnv m s r = some e → mget e.vars c!"REZ_BUILD_INSTALL_PATH" = some e.installDir := by
  intro h
  have := h demoMachine demoSettings
    { demoRequest none none none with context := some [(c!"REZ_BUILD_INSTALL_PATH", c!"/other")] } _
    ⟨by decide, by decide, by decide⟩ rfl
  revert this
  decide +kernel

/-- A build is not started for a package with variants of which none was chosen. -/
theorem C140_chosen (r : Request) : accepts r = true ↔ r.package.variants = [] ∨ ∃ i, r.variantIndex = some i := by
  unfold accepts
  cases r.package.variants <;> cases r.variantIndex <;> simp

end Rez.Props
