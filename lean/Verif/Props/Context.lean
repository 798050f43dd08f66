import Verif.Spec.Context
import Verif.Props.Search
import Verif.Props.Rex
import Verif.Props.Util
/-!
# Contexts: C73, C114, C115, C116, C117, C118
-/
namespace Rez.Props
open Rez Rez.Context Rez.Spec.Context Rez.Rex RexLemmas

namespace ContextLemmas

theorem satisfies_iff (r : PackageRequirement) (ps : List Pkg) :
    satisfies r ps = true ↔ ∃ before p after, ps = before ++ p :: after ∧ (∀ q ∈ before, q.name ≠ r.name) ∧ Meets p r := by
  induction ps with
  | nil => simp [satisfies]
  | cons p ps ih =>
    rw [satisfies]
    by_cases hn : p.name = r.name
    · rw [if_pos hn]
      constructor
      · intro h
        refine ⟨[], p, ps, rfl, by simp, hn, fun v hv => ?_⟩
        rw [hv] at h
        exact h
      · rintro ⟨before, q, after, he, hb, hm⟩
        have hq : q = p := by
          cases before with
          | nil => simp only [List.nil_append, List.cons.injEq] at he; exact he.1.symm
          | cons b before =>
            simp only [List.cons_append, List.cons.injEq] at he
            exact absurd (he.1 ▸ hn) (hb b List.mem_cons_self)
        subst hq
        cases hv : q.version with
        | none => rfl
        | some v => exact hm.2 v hv
    · rw [if_neg hn, ih]
      constructor
      · rintro ⟨before, q, after, rfl, hb, hm⟩
        refine ⟨p :: before, q, after, rfl, ?_, hm⟩
        intro x hx
        rcases List.mem_cons.mp hx with rfl | hx
        · exact hn
        · exact hb x hx
      · rintro ⟨before, q, after, he, hb, hm⟩
        cases before with
        | nil =>
          simp only [List.nil_append, List.cons.injEq] at he
          exact absurd (he.1 ▸ hm.1) hn
        | cons b before =>
          simp only [List.cons_append, List.cons.injEq] at he
          exact ⟨before, q, after, he.2, fun x hx => hb x (List.mem_cons_of_mem _ hx), hm⟩

theorem validate_iff (alnum : Char → Bool) (p : Pkg) : p.validate alnum = true ↔ WellFormed alnum p := by
  have hany : ∀ l : List Str, l.any List.isEmpty = true ↔ [] ∈ l := by
    intro l
    rw [List.any_eq_true]
    constructor
    · rintro ⟨x, hx, he⟩; rw [List.isEmpty_iff] at he; exact he ▸ hx
    · intro h; exact ⟨[], h, rfl⟩
  unfold Pkg.validate
  constructor
  · intro h
    split at h
    · cases h
    rename_i h1
    split at h
    · cases h
    rename_i h2
    split at h
    · cases h
    rename_i h3
    split at h
    · cases h
    rename_i h4
    split at h
    · cases h
    rename_i h5
    split at h
    · cases h
    rename_i h6
    split at h
    · cases h
    rename_i h7
    refine ⟨⟨fun he => h1 (by rw [he]; rfl), ?_⟩, ?_, fun hm => h4 ((hany _).mpr hm), fun hm => h5 ((hany _).mpr hm),
      fun hm => h6 ((hany _).mpr hm), ?_⟩
    · intro c hc
      simp only [Bool.not_eq_true', Bool.not_eq_false] at h2
      have := List.all_eq_true.mp h2 c hc
      simpa [or_assoc] using this
    · intro v hv he
      rw [hv] at h3
      simp [he] at h3
    · intro v hv hm
      exact h7 (List.any_eq_true.mpr ⟨v, hv, (hany _).mpr hm⟩)
  · rintro ⟨⟨h1, h2⟩, h3, h4, h5, h6, h7⟩
    rw [if_neg (by simpa [List.isEmpty_iff] using h1), if_neg, if_neg, if_neg (fun h => h4 ((hany _).mp h)),
      if_neg (fun h => h5 ((hany _).mp h)), if_neg (fun h => h6 ((hany _).mp h)), if_neg]
    · intro h
      obtain ⟨v, hv, hm⟩ := List.any_eq_true.mp h
      exact h7 v hv ((hany _).mp hm)
    · cases hv : p.version with
      | none => simp
      | some v => simpa [List.isEmpty_iff] using h3 v hv
    · simp only [Bool.not_eq_true', Bool.not_eq_false]
      rw [List.all_eq_true]
      intro c hc
      simpa [or_assoc] using h2 c hc

end ContextLemmas
open ContextLemmas

/-! ## C73 -/

/-- C73: `validate` accepts a context exactly if for every requirement the first package of its name meets it, and every
package is well formed. -/
theorem C73_exact (alnum : Char → Bool) (c : Ctx) : c.validate alnum = true ↔
    (∀ r ∈ c.requirements, ∃ before p after, c.packages = before ++ p :: after ∧ (∀ q ∈ before, q.name ≠ r.name) ∧ Meets p r) ∧
    ∀ p ∈ c.packages, WellFormed alnum p := by
  unfold Ctx.validate
  constructor
  · intro h
    split at h
    · cases h
    rename_i h1
    split at h
    · cases h
    rename_i h2
    refine ⟨fun r hr => (satisfies_iff r _).mp ?_, fun p hp => (validate_iff alnum p).mp ?_⟩
    · by_contra hs
      exact h1 (List.any_eq_true.mpr ⟨r, hr, by simpa using hs⟩)
    · by_contra hs
      exact h2 (List.any_eq_true.mpr ⟨p, hp, by simpa using hs⟩)
  · rintro ⟨h1, h2⟩
    rw [if_neg, if_neg]
    · intro h
      obtain ⟨p, hp, hv⟩ := List.any_eq_true.mp h
      rw [(validate_iff alnum p).mpr (h2 p hp)] at hv
      cases hv
    · intro h
      obtain ⟨r, hr, hv⟩ := List.any_eq_true.mp h
      rw [(satisfies_iff r _).mpr (h1 r hr)] at hv
      cases hv

/-- C73, partial: a context that validates has what its requirements ask for, if none of them is weak or a conflict.
Missing: these flags (refuted below). -/
theorem C73_asks_partial (alnum : Char → Bool) (c : Ctx) (h : c.validate alnum = true)
    (hf : ∀ r ∈ c.requirements, r.weak = false ∧ r.conflict = false) : ∀ r ∈ c.requirements, Asks r c.packages := by
  intro r hr
  obtain ⟨before, p, after, he, _, hm⟩ := ((C73_exact alnum c).mp h).1 r hr
  unfold Asks
  rw [(hf r hr).1, (hf r hr).2]
  simp only [Bool.false_eq_true, if_false]
  exact ⟨p, by rw [he]; simp, hm⟩

/-- C73: and the other way round, if the packages are well formed and no name occurs twice. -/
theorem C73_accepts (alnum : Char → Bool) (c : Ctx) (hw : ∀ p ∈ c.packages, WellFormed alnum p)
    (hn : (c.packages.map Pkg.name).Nodup) (hf : ∀ r ∈ c.requirements, r.weak = false ∧ r.conflict = false)
    (h : ∀ r ∈ c.requirements, Asks r c.packages) : c.validate alnum = true := by
  refine (C73_exact alnum c).mpr ⟨fun r hr => ?_, hw⟩
  have ha := h r hr
  unfold Asks at ha
  rw [(hf r hr).1, (hf r hr).2] at ha
  simp only [Bool.false_eq_true, if_false] at ha
  obtain ⟨p, hp, hm⟩ := ha
  obtain ⟨before, after, he⟩ := List.append_of_mem hp
  refine ⟨before, p, after, he, fun q hq hqn => ?_, hm⟩
  rw [he, List.map_append, List.map_cons] at hn
  have := (List.nodup_append.mp hn).2.2 q.name (List.mem_map_of_mem hq) p.name List.mem_cons_self
  exact this (hqn.trans hm.1.symm)

/-- A package with a name and nothing else. -/
def bare (name : Str) : Pkg := ⟨name, none, [], [], [], [], [], none⟩

/-- C73 is false of conflicts: a context with the package that it must not have validates, and one without it does not;
and of weak requirements: a context without the package does not validate. -/
theorem C73_flags_false (alnum : Char → Bool) (ha : alnum 'a' = true) (weak : Bool) :
    let no : PackageRequirement := ⟨c!"a", none, weak, true⟩
    let maybe : PackageRequirement := ⟨c!"a", none, true, false⟩
    let has : Ctx := ⟨[], none, [no], [bare c!"a"], []⟩
    let hasNot : Ctx := ⟨[], none, [no], [], []⟩
    let empty : Ctx := ⟨[], none, [maybe], [], []⟩
    (has.validate alnum = true ∧ ¬ Asks no has.packages) ∧ (hasNot.validate alnum = false ∧ Asks no hasNot.packages) ∧
    (empty.validate alnum = false ∧ Asks maybe empty.packages) := by
  refine ⟨⟨?_, ?_⟩, ⟨rfl, by simp [Asks]⟩, ⟨rfl, by simp [Asks]⟩⟩
  · simp [Ctx.validate, satisfies, bare, Pkg.validate, ha]
  · simp [Asks, Meets, bare]

example : (⟨[], none, [⟨c!"a", some c!">=1", false, false⟩], [bare c!"b", { bare c!"a" with version := Version.parse c!"1.2" }], []⟩ : Ctx).validate isAlpha = true ∧
    (⟨[], none, [⟨c!"a", some c!">=2", false, false⟩], [bare c!"b", { bare c!"a" with version := Version.parse c!"1.2" }], []⟩ : Ctx).validate isAlpha = false := by
  decide +kernel

/-! ## C114: the variables of processes -/

namespace ContextLemmas
theorem mget_extend (m es : List (Str × Str)) (hn : (mkeys es).Nodup) (k : Str) :
    mget (extend m es) k = (mget es k).or (mget m k) := by
  unfold extend
  induction es generalizing m with
  | nil => rfl
  | cons e es ih =>
    obtain ⟨a, v⟩ := e
    have hn' := List.nodup_cons.mp hn
    rw [List.foldl_cons, ih _ hn'.2, mget_mset, mget]
    by_cases h : a = k
    · subst h
      rw [if_pos rfl, (mget_none_iff es a).mpr hn'.1]
      simp
    · rw [if_neg h, if_neg (fun e => h e.symm)]

theorem nodup_extend (m es : List (Str × Str)) (hn : (mkeys m).Nodup) : (mkeys (extend m es)).Nodup := by
  unfold extend
  induction es generalizing m with
  | nil => exact hn
  | cons e es ih => exact ih _ (nodup_mset hn _ _)

theorem mget_iter {iter : List (Str × Str) → List (Str × Str)} (hi : ∀ l, (iter l).Perm l) {l : List (Str × Str)}
    (hn : (mkeys l).Nodup) (k : Str) : mget (iter l) k = mget l k := RexLemmas.mget_perm (hi l).symm hn k

theorem nodup_iter {iter : List (Str × Str) → List (Str × Str)} (hi : ∀ l, (iter l).Perm l) {l : List (Str × Str)}
    (hn : (mkeys l).Nodup) : (mkeys (iter l)).Nodup := ((hi l).map Prod.fst).nodup_iff.mpr hn

theorem executor_get {iter : List (Str × Str) → List (Str × Str)} (hi : ∀ l, (iter l).Perm l) {vars : List (Str × Str)}
    {c : ExecConfig} (hv : (mkeys vars).Nodup) (hc : (mkeys c.additional).Nodup) (parent : List (Str × Str)) (k : Str) :
    mget (extend parent (iter (executorVars iter vars c))) k =
      ((mget c.additional k).or (mget vars k)).or (mget parent k) := by
  have hn := nodup_extend vars (iter c.additional) hv
  unfold executorVars
  rw [mget_extend _ _ (nodup_iter hi hn), mget_iter hi hn, mget_extend _ _ (nodup_iter hi hc), mget_iter hi hc]
end ContextLemmas

/-- C114, partial: a process has exactly the additional variables, the variables of the context and, if asked for, those
of the calling process, in this order of precedence and whatever the order of the hash maps.  Missing: scripts and
interactive shells that are not to inherit (refuted below). -/
theorem C114_vars_partial (iter : List (Str × Str) → List (Str × Str)) (hi : ∀ l, (iter l).Perm l)
    (parent vars : List (Str × Str)) (c : ExecConfig) (hv : (mkeys vars).Nodup) (hc : (mkeys c.additional).Nodup) (l : Launch)
    (hl : (l ≠ .script ∧ l ≠ .interactive) ∨ c.inherit = true) (k : Str) :
    mget (childVars iter parent vars c l) k =
      ((mget c.additional k).or (mget vars k)).or (if c.inherit then mget parent k else none) := by
  have hbase : mget (if c.inherit then parent else []) k = if c.inherit then mget parent k else none := by
    split <;> rfl
  cases l with
  | execute => rw [childVars, executor_get hi hv hc, hbase]
  | background => rw [childVars, executor_get hi hv hc, hbase]
  | batch => rw [childVars, executor_get hi hv hc, hbase]
  | script =>
    rcases hl with ⟨h, _⟩ | h
    · exact absurd rfl h
    · rw [childVars, executor_get hi hv hc, if_pos h]
  | interactive =>
    rcases hl with ⟨_, h⟩ | h
    · exact absurd rfl h
    · rw [childVars, executor_get hi hv hc, if_pos h]
  | spawn =>
    rw [childVars, mget_extend _ _ (nodup_iter hi hc), mget_extend _ _ (nodup_iter hi hv), mget_iter hi hc, mget_iter hi hv, hbase]
    cases mget c.additional k <;> rfl

/-- C114 is false of scripts and interactive shells: they have every variable of the calling process, although they are
not to inherit any. -/
theorem C114_inherit_false (iter : List (Str × Str) → List (Str × Str)) (hi : ∀ l, (iter l).Perm l)
    (parent vars : List (Str × Str)) (c : ExecConfig) (hv : (mkeys vars).Nodup) (hc : (mkeys c.additional).Nodup)
    (l : Launch) (hl : l = .script ∨ l = .interactive) (k v : Str) (hk : mget parent k = some v)
    (h1 : mget vars k = none) (h2 : mget c.additional k = none) : mget (childVars iter parent vars c l) k = some v := by
  rcases hl with rfl | rfl <;> rw [childVars, executor_get hi hv hc, h1, h2, hk] <;> rfl

example : mget (childVars id [(c!"HOME", c!"/h")] [(c!"A", c!"1")] ⟨false, [(c!"B", c!"2")]⟩ .execute) c!"HOME" = none ∧
    mget (childVars id [(c!"HOME", c!"/h")] [(c!"A", c!"1")] ⟨false, [(c!"B", c!"2")]⟩ .script) c!"HOME" = some c!"/h" ∧
    mget (childVars id [(c!"HOME", c!"/h")] [(c!"A", c!"1")] ⟨true, [(c!"A", c!"2")]⟩ .spawn) c!"A" = some c!"2" := by decide

/-! ## C115: the environment file -/

namespace ContextLemmas
theorem splitChar_line {d : Char} {a b : Str} (ha : d ∉ a) : splitChar d (a ++ d :: b) = a :: splitChar d b := by
  have := RexLemmas.splitChar_two d a b
  rw [this, splitChar_noSep ha]
  rfl

theorem splitOnce_eq {n v : Str} (hn : '=' ∉ n) : splitOnce c!"=" (n ++ '=' :: v) = some (n, v) := by
  induction n with
  | nil => simp [splitOnce, List.isPrefixOf]
  | cons c n ih =>
    rw [List.mem_cons, not_or] at hn
    rw [List.cons_append, splitOnce, if_neg (by simp [List.isPrefixOf, hn.1]), ih hn.2]
    rfl

/-- A variable that can be written into an environment file. -/
def Listable (e : Str × Str) : Prop := '=' ∉ e.1 ∧ '\n' ∉ e.1 ∧ e.1.head? ≠ some '#' ∧ '\n' ∉ e.2

theorem read_lines (es : List (Str × Str)) (h : ∀ e ∈ es, Listable e) :
    readEnv (es.flatMap fun e => e.1 ++ c!"=" ++ e.2 ++ c!"\n") = es := by
  unfold readEnv
  induction es with
  | nil => rfl
  | cons e es ih =>
    obtain ⟨h1, h2, h3, h4⟩ := h e List.mem_cons_self
    have hline : '\n' ∉ e.1 ++ '=' :: e.2 := by simp [h2, h4]
    have : (e :: es).flatMap (fun e => e.1 ++ c!"=" ++ e.2 ++ c!"\n") =
        (e.1 ++ '=' :: e.2) ++ '\n' :: es.flatMap (fun e => e.1 ++ c!"=" ++ e.2 ++ c!"\n") := by simp
    rw [this, splitChar_line hline, List.filterMap_cons]
    have hhead : ((e.1 ++ '=' :: e.2).isEmpty || (e.1 ++ '=' :: e.2).head? == some '#') = false := by
      cases hn : e.1 with
      | nil => rfl
      | cons c n =>
        rw [hn] at h3
        simpa using h3
    rw [hhead]
    simp only [Bool.false_eq_true, if_false, splitOnce_eq h1]
    rw [ih fun e he => h e (List.mem_cons_of_mem _ he)]
end ContextLemmas

/-- C115, partial: an exported environment file read line by line gives exactly the variables of the context, whatever the
order of the hash map, if no value or name has a line break (nor the name a `=`, a `#` in front, nor the context's id
and name a line break).  Missing: line breaks (refuted below). -/
theorem C115_env_partial (iter : List (Str × Str) → List (Str × Str)) (hi : ∀ l, (iter l).Perm l) (c : Ctx)
    (hid : '\n' ∉ c.id) (hname : ∀ n, c.name = some n → '\n' ∉ n)
    (hv : ∀ e ∈ c.vars, '=' ∉ e.1 ∧ '\n' ∉ e.1 ∧ e.1.head? ≠ some '#' ∧ '\n' ∉ e.2) :
    (readEnv (exportEnv iter c)).Perm c.vars := by
  have hbody := read_lines (iter c.vars) fun e he => hv e ((hi _).mem_iff.mp he)
  have skip : ∀ l rest : Str, '\n' ∉ l → readEnv ('#' :: l ++ '\n' :: rest) = readEnv rest := by
    intro l rest hl
    have h' : '\n' ∉ '#' :: l := by simp [hl]
    unfold readEnv
    rw [splitChar_line h', List.filterMap_cons]
    rfl
  have blank : ∀ rest : Str, readEnv ('\n' :: rest) = readEnv rest := by
    intro rest
    unfold readEnv
    have := splitChar_line (d := '\n') (a := []) (b := rest) (by simp)
    rw [List.nil_append] at this
    rw [this, List.filterMap_cons]
    rfl
  have : readEnv (exportEnv iter c) = iter c.vars := by
    unfold exportEnv
    refine Eq.trans ?_ hbody
    generalize (iter c.vars).flatMap (fun e => e.1 ++ c!"=" ++ e.2 ++ c!"\n") = body
    cases hn : c.name with
    | none =>
      simp only
      have : c!"# Generated by rez-core\n" ++ (c!"# Context: " ++ c.id ++ c!"\n") ++ [] ++ c!"\n" ++ body =
          '#' :: c!" Generated by rez-core" ++ '\n' :: ('#' :: (c!" Context: " ++ c.id) ++ '\n' :: ('\n' :: body)) := by simp
      rw [this, skip _ _ (by decide), skip _ _ (by simp [hid]), blank]
    | some n =>
      simp only
      have : c!"# Generated by rez-core\n" ++ (c!"# Context: " ++ c.id ++ c!"\n") ++ (c!"# Name: " ++ n ++ c!"\n") ++ c!"\n" ++ body =
          '#' :: c!" Generated by rez-core" ++ '\n' :: ('#' :: (c!" Context: " ++ c.id) ++ '\n' ::
            ('#' :: (c!" Name: " ++ n) ++ '\n' :: ('\n' :: body))) := by simp
      rw [this, skip _ _ (by decide), skip _ _ (by simp [hid]), skip _ _ (by simp [hname n hn]), blank]
  rw [this]
  exact hi _

/-- C115 is false: a value with a line break defines a variable of its own choice. -/
theorem C115_inject_false : ∃ c : Ctx, mget c.vars c!"LD_PRELOAD" = none ∧
    mget (readEnv (exportEnv id c)) c!"LD_PRELOAD" = some c!"x.so" :=
  ⟨⟨c!"1", none, [], [], [(c!"A", c!"1\nLD_PRELOAD=x.so")]⟩, by decide, by decide⟩

example : readEnv (exportEnv id ⟨c!"12", some c!"my ctx", [], [], [(c!"PATH", c!"/bin:/usr/bin"), (c!"E", c!"a=b")]⟩) =
    [(c!"PATH", c!"/bin:/usr/bin"), (c!"E", c!"a=b")] := by decide

/-! ## C116: context files -/

namespace ContextLemmas
theorem join_split (d : Char) (s : Str) : joinWith [d] (splitChar d s) = s := by
  induction s with
  | nil => rfl
  | cons c s ih =>
    rw [splitChar]
    by_cases h : c = d
    · subst h
      rw [if_pos (by simp)]
      cases hs : splitChar c s with
      | nil => exact absurd hs (splitChar_ne_nil c s)
      | cons p ps =>
        rw [← hs]
        rw [hs, joinWith, ← hs, ih]
        simp
    · rw [if_neg (by simpa using h)]
      cases hs : splitChar d s with
      | nil => exact absurd hs (splitChar_ne_nil d s)
      | cons p ps =>
        rw [hs] at ih
        cases ps with
        | nil => simpa [joinWith] using ih
        | cons q ps => simpa [joinWith] using ih
end ContextLemmas

/-- C116, partial: a context saved, in either format, to a path ending in `.rxt` or `.rxtb` is loaded back, for every codec
that reads what it writes; other files are not touched.  Missing: other endings and crashes (refuted below). -/
theorem C116_load_partial {Bytes : Type} (k : Codec Bytes) (hk : ∀ f c, k.dec (k.enc f c) = some c)
    (files : List (Str × Bytes)) (c : Ctx) (stem path : Str) (f : Format) (hs : stem ≠ []) (hd : '/' ∉ stem)
    (dir : Str) (ext : Str) (he : ext = c!"rxt" ∨ ext = c!"rxtb")
    (hp : path = dir ++ c!"/" ++ stem ++ c!"." ++ ext) :
    load k (save k files c path f) path = some c ∧
    ∀ other, other ≠ path → load k (save k files c path f) other = load k files other := by
  have hlast : ∀ (d : Char) (a b : Str), d ∉ b → splitLast d (a ++ d :: b) = some (a, b) := by
    intro d a b hb
    unfold splitLast
    rw [RexLemmas.splitChar_two, splitChar_noSep hb]
    have hne := splitChar_ne_nil d a
    rw [List.reverse_append, List.reverse_singleton, List.singleton_append]
    cases hr : (splitChar d a).reverse with
    | nil => exact absurd (List.reverse_eq_nil_iff.mp hr) hne
    | cons p ps =>
      simp only
      rw [← hr, List.reverse_reverse, join_split]
  have hfmt : formatOf path ≠ none := by
    have he' : '/' ∉ ext ∧ '.' ∉ ext := by rcases he with rfl | rfl <;> decide
    have h1 : splitLast '/' path = some (dir, stem ++ '.' :: ext) := by
      rw [hp]
      have : dir ++ c!"/" ++ stem ++ c!"." ++ ext = dir ++ '/' :: (stem ++ '.' :: ext) := by simp
      rw [this]
      exact hlast '/' _ _ (by simp [hd, he'.1])
    have h2 : extension path = some ext := by
      unfold extension
      rw [h1]
      simp only [Option.elim]
      rw [hlast '.' stem ext he'.2]
      simp [hs]
    unfold formatOf
    rw [h2]
    rcases he with rfl | rfl <;> decide
  constructor
  · unfold load save
    cases hf : formatOf path with
    | none => exact absurd hf hfmt
    | some g => simp [mget_mset, hk]
  · intro other ho
    unfold load save
    rw [mget_mset, if_neg ho]

/-- C116 is false of other endings: what is saved to `ctx.json` cannot be loaded, although saving reports no error; nor
can a context with an empty name be loaded from its default file. -/
theorem C116_ending_false {Bytes : Type} (k : Codec Bytes) (files : List (Str × Bytes)) (c : Ctx) (f : Format) :
    load k (save k files c c!"ctx.json" f) c!"ctx.json" = none ∧
    (c.name = some [] → defaultName id c = .ok c!".rxt" ∧ load k (save k files c c!".rxt" f) c!".rxt" = none) := by
  constructor
  · unfold load
    have : formatOf c!"ctx.json" = none := by decide
    rw [this]
  · intro h
    refine ⟨by simp [defaultName, h], ?_⟩
    unfold load
    have : formatOf c!".rxt" = none := by decide
    rw [this]

/-- C116 is false of crashes: if the process dies while an older context is overwritten, the file can be left in a state
that no codec which refuses the empty text can load; the older context is gone. -/
theorem C116_crash_false (k : Codec Str) (hk : k.dec [] = none) (hr : ∀ f c, k.dec (k.enc f c) = some c) (old new : Ctx) (f : Format) :
    load k (save k [] old c!"a.rxt" f) c!"a.rxt" = some old ∧
    ∃ n, load k (saveCut k (save k [] old c!"a.rxt" f) new c!"a.rxt" f n) c!"a.rxt" = none := by
  have hf : formatOf c!"a.rxt" = some .json := by decide
  refine ⟨?_, 0, ?_⟩
  · simp [load, save, hf, mget_mset, hr]
  · simp [load, saveCut, hf, mget_mset, hk]

/-- C116: the default file name of an unnamed context is only made for an id of at least eight bytes; a shorter id, as a
file may have it, is a panic. -/
theorem C116_name_false (lower : Str → Str) (c : Ctx) (h : c.name = none) (hid : byteLen c.id < 8) :
    defaultName lower c = .panic := by
  unfold defaultName
  rw [h]
  cases hp : Util.prefixBytes 8 c.id with
  | none => rfl
  | some p =>
    obtain ⟨⟨t, ht⟩, h2⟩ := UtilLemmas.prefixBytes_spec _ _ _ hp
    have := congrArg byteLen ht
    rw [UtilLemmas.byteLen_append] at this
    omega

/-- C116: the context files of a directory are found, in ascending order: exactly the files ending in `.rxt` or `.rxtb`. -/
theorem C116_find (entries : List (Str × Bool)) : (findFiles entries).Pairwise (fun a b => cmpStr a b ≠ .gt) ∧
    ∀ p, p ∈ findFiles entries ↔ (p, true) ∈ entries ∧ (extension p = some c!"rxt" ∨ extension p = some c!"rxtb") := by
  refine ⟨SearchLemmas.sortStr_sorted _, fun p => ?_⟩
  rw [findFiles, (SearchLemmas.sortStr_perm _).mem_iff, List.mem_map]
  have hf : (formatOf p).isSome = true ↔ extension p = some c!"rxt" ∨ extension p = some c!"rxtb" := by
    unfold formatOf
    cases extension p with
    | none => simp
    | some e =>
      simp only [Option.some.injEq]
      by_cases h1 : e = c!"rxt"
      · simp [h1]
      · by_cases h2 : e = c!"rxtb"
        · simp [h2]
        · simp [h1, h2]
  constructor
  · rintro ⟨⟨q, b⟩, h, rfl⟩
    obtain ⟨h1, h2⟩ := List.mem_filter.mp h
    rw [Bool.and_eq_true] at h2
    exact ⟨by rw [← h2.1]; exact h1, hf.mp h2.2⟩
  · rintro ⟨h1, h2⟩
    exact ⟨(p, true), List.mem_filter.mpr ⟨h1, by simpa using hf.mpr h2⟩, rfl⟩

example : load (⟨fun _ c => c.id, fun b => some ⟨b, none, [], [], []⟩⟩ : Codec Str)
    (save ⟨fun _ c => c.id, fun b => some ⟨b, none, [], [], []⟩⟩ [] ⟨c!"42", none, [], [], []⟩ c!"/tmp/a.b.rxt" .binary)
    c!"/tmp/a.b.rxt" = some ⟨c!"42", none, [], [], []⟩ := by rfl

/-! ## C118: tools -/

/-- C118: the tools of a context are exactly those of its packages, each once, in ascending order. -/
theorem C118_tools (c : Ctx) : Spec.Search.Ascending c.allTools ∧ ∀ t, t ∈ c.allTools ↔ ∃ p ∈ c.packages, t ∈ p.tools := by
  have h := SearchLemmas.dedup_spec (Search.sortStr (c.packages.flatMap Pkg.tools)) (SearchLemmas.sortStr_sorted _)
  refine ⟨h.1, fun t => ?_⟩
  rw [Ctx.allTools, h.2 t, (SearchLemmas.sortStr_perm _).mem_iff, List.mem_flatMap]

namespace ContextLemmas
theorem mget_extend_last (m es : List (Str × Str)) (k : Str) : mget (extend m es) k = (mget es.reverse k).or (mget m k) :=
  RexLemmas.mget_msets es m k
end ContextLemmas

/-- C118: a tool offered by several packages is the one of the last of them. -/
theorem C118_last (before after : List Resolved) (r : Resolved) (t : Str) (ht : t ∈ r.pkg.tools)
    (ha : ∀ q ∈ after, t ∉ q.pkg.tools) : mget (getTools (before ++ r :: after)) t = some (r.root ++ c!"/bin/" ++ t) := by
  unfold getTools
  rw [mget_extend_last]
  have key : ∀ l : List (Str × Str), (∀ e ∈ l, e.1 = t → e.2 = r.root ++ c!"/bin/" ++ t) → (∃ e ∈ l, e.1 = t) →
      mget l t = some (r.root ++ c!"/bin/" ++ t) := by
    intro l h1 h2
    cases hg : mget l t with
    | none =>
      obtain ⟨e, he, rfl⟩ := h2
      exact absurd (List.mem_map_of_mem he) ((mget_none_iff l e.1).mp hg)
    | some v =>
      rw [← h1 (t, v) (mget_some_mem hg) rfl]
  have hsplit : ∀ a b : List (Str × Str), mget (a ++ b) t = (mget a t).or (mget b t) := by
    intro a b
    induction a with
    | nil => rfl
    | cons e a ih =>
      obtain ⟨x, y⟩ := e
      rw [List.cons_append, mget, mget]
      by_cases hx : x = t
      · simp [hx]
      · rw [if_neg hx, if_neg hx, ih]
  rw [List.flatMap_append, List.flatMap_cons, List.reverse_append, List.reverse_append, List.append_assoc, hsplit, hsplit]
  have h1 : mget (after.flatMap fun r => r.pkg.tools.map fun t => (t, r.root ++ c!"/bin/" ++ t)).reverse t = none := by
    rw [mget_none_iff]
    intro hm
    obtain ⟨e, he, h⟩ := List.mem_map.mp hm
    obtain ⟨q, hq, hmem⟩ := List.mem_flatMap.mp (List.mem_reverse.mp he)
    obtain ⟨x, hx, rfl⟩ := List.mem_map.mp hmem
    simp only at h
    subst h
    exact ha q hq hx
  have h2 : mget (r.pkg.tools.map fun t => (t, r.root ++ c!"/bin/" ++ t)).reverse t = some (r.root ++ c!"/bin/" ++ t) := by
    apply key
    · intro e he het
      obtain ⟨x, hx, rfl⟩ := List.mem_map.mp (List.mem_reverse.mp he)
      simp only at het
      subst het
      rfl
    · exact ⟨(t, r.root ++ c!"/bin/" ++ t), List.mem_reverse.mpr (List.mem_map.mpr ⟨t, ht, rfl⟩), rfl⟩
  rw [h1, h2]
  rfl

example : (⟨[], none, [], [{ bare c!"a" with tools := [c!"t", c!"s"] }, { bare c!"b" with tools := [c!"s"] }], []⟩ : Ctx).allTools =
    [c!"s", c!"t"] ∧ mget (getTools [⟨{ bare c!"a" with tools := [c!"s"] }, none, c!"/a"⟩, ⟨{ bare c!"b" with tools := [c!"s"] }, none, c!"/b"⟩]) c!"s" =
    some c!"/b/bin/s" := by decide

/-! ## C117: export lines -/

namespace ContextLemmas
open RexLemmas

theorem plain_append {a b : Str} (ha : Plain a) (hb : Plain b) : Plain (a ++ b) := by
  obtain ⟨a1, a2, a3⟩ := ha
  obtain ⟨b1, b2, b3⟩ := hb
  exact ⟨by simp [a1, b1], by simp [a2, b2], by simp [a3, b3]⟩

/-- One replacement on a text with references. -/
def stepVar (n v : Str) : Tok → Tok
  | .var m => if m = n then .lit v else .var m
  | t => t
def stepPkg (k v : Str) : Tok → Tok
  | .pkg j => if j = k then .lit v else .pkg j
  | t => t

theorem replaceAux_append_hit {pat by_ s : Str} (hne : pat ≠ []) : replaceAll pat by_ (pat ++ s) = by_ ++ replaceAll pat by_ s :=
  replace_hit pat by_ s hne

theorem var_step (n v : Str) (hn : Plain n) (toks : List Tok) (ht : ∀ t ∈ toks, t.Ok) :
    replaceAll (c!"${" ++ n ++ c!"}") v (toks.flatMap Tok.text) = (toks.map (stepVar n v)).flatMap Tok.text := by
  unfold replaceAll
  induction toks with
  | nil => simp [replaceAux]
  | cons t toks ih =>
    have ih := ih fun t h => ht t (List.mem_cons_of_mem _ h)
    have hok := ht t List.mem_cons_self
    rw [List.flatMap_cons, List.map_cons, List.flatMap_cons, ← ih]
    have hpat : c!"${" ++ n ++ c!"}" = '$' :: ('{' :: n ++ c!"}") := by simp
    cases t with
    | lit s =>
      rw [hpat]
      exact replace_pass hok.1 _
    | pkg k =>
      rw [hpat]
      have hd : '$' ∉ (Tok.pkg k).text := by simp [Tok.text, hok.1]
      exact replace_pass hd _
    | var m =>
      by_cases h : m = n
      · subst h
        simp only [stepVar, if_true]
        exact replace_hit _ _ _ (by simp)
      · simp only [stepVar, if_neg h]
        have htext : (Tok.var m).text = '$' :: ('{' :: m ++ c!"}") := by simp [Tok.text]
        rw [hpat, htext]
        show replaceAux _ _ 0 ('$' :: ('{' :: m ++ c!"}" ++ toks.flatMap Tok.text)) = _
        rw [replaceAux, if_neg]
        · have hd : '$' ∉ '{' :: m ++ c!"}" := by simp [hok.1.1]
          rw [replace_pass hd]
          rfl
        · intro hp
          have h2 : (n ++ c!"}").isPrefixOf (m ++ '}' :: toks.flatMap Tok.text) = true := by
            simpa [List.isPrefixOf] using hp
          exact h (brace_prefix hn.2.2 hok.1.2.2 h2).symm

theorem pkg_step (k v : Str) (hk : Plain k) (toks : List Tok) (ht : ∀ t ∈ toks, t.Ok) (hv : ∀ t ∈ toks, t ≠ .var k) :
    replaceAll (c!"{" ++ k ++ c!"}") v (toks.flatMap Tok.text) = (toks.map (stepPkg k v)).flatMap Tok.text := by
  unfold replaceAll
  induction toks with
  | nil => simp [replaceAux]
  | cons t toks ih =>
    have ih := ih (fun t h => ht t (List.mem_cons_of_mem _ h)) (fun t h => hv t (List.mem_cons_of_mem _ h))
    have hok := ht t List.mem_cons_self
    rw [List.flatMap_cons, List.map_cons, List.flatMap_cons, ← ih]
    have hpat : c!"{" ++ k ++ c!"}" = '{' :: (k ++ c!"}") := by simp
    have miss : ∀ j : Str, Plain j → j ≠ k → ∀ rest, replaceAux ('{' :: (k ++ c!"}")) v 0 ('{' :: (j ++ c!"}") ++ rest) =
        '{' :: (j ++ c!"}") ++ replaceAux ('{' :: (k ++ c!"}")) v 0 rest := by
      intro j hj hjk rest
      rw [List.cons_append, replaceAux, if_neg]
      · have hd : '{' ∉ j ++ c!"}" := by simp [hj.2.1]
        rw [replace_pass hd]
        rfl
      · intro hp
        have h2 : (k ++ c!"}").isPrefixOf (j ++ '}' :: rest) = true := by simpa [List.isPrefixOf] using hp
        exact hjk (brace_prefix hk.2.2 hj.2.2 h2).symm
    cases t with
    | lit s =>
      rw [hpat]
      exact replace_pass hok.2.1 _
    | pkg j =>
      by_cases h : j = k
      · subst h
        simp only [stepPkg, if_true]
        exact replace_hit _ _ _ (by simp)
      · simp only [stepPkg, if_neg h]
        have htext : (Tok.pkg j).text = '{' :: (j ++ c!"}") := by simp [Tok.text]
        rw [hpat, htext]
        exact miss j hok h _
    | var m =>
      have hm : m ≠ k := fun e => hv _ List.mem_cons_self (by rw [e])
      have htext : (Tok.var m).text = '$' :: ('{' :: (m ++ c!"}")) := by simp [Tok.text]
      simp only [stepPkg]
      rw [hpat, htext, List.cons_append, replaceAux, if_neg (by simp [List.isPrefixOf]), miss m hok.1 hm]
      rfl

theorem ok_stepVar {n v : Str} (hv : Plain v) {toks : List Tok} (ht : ∀ t ∈ toks, t.Ok) : ∀ t ∈ toks.map (stepVar n v), t.Ok := by
  intro t h
  obtain ⟨t', h', rfl⟩ := List.mem_map.mp h
  cases t' with
  | lit s => exact ht _ h'
  | pkg k => exact ht _ h'
  | var m =>
    simp only [stepVar]
    split
    · exact hv
    · exact ht _ h'

theorem ok_stepPkg {n v : Str} (hv : Plain v) {toks : List Tok} (ht : ∀ t ∈ toks, t.Ok) : ∀ t ∈ toks.map (stepPkg n v), t.Ok := by
  intro t h
  obtain ⟨t', h', rfl⟩ := List.mem_map.mp h
  cases t' with
  | lit s => exact ht _ h'
  | var k => exact ht _ h'
  | pkg m =>
    simp only [stepPkg]
    split
    · exact hv
    · exact ht _ h'

/-- The same with a value that may be missing. -/
def stepOpt (k : Str) (v : Option Str) (t : Tok) : Tok :=
  match v, t with
  | some v, .pkg j => if j = k then .lit v else .pkg j
  | _, t => t

theorem stepOpt_some (k v : Str) : stepOpt k (some v) = stepPkg k v := by
  funext t
  cases t <;> rfl

theorem stepOpt_none (k : Str) : stepOpt k none = id := by
  funext t
  cases t <;> rfl

theorem stepOpt_lit (k : Str) (v : Option Str) (s : Str) : stepOpt k v (.lit s) = .lit s := by cases v <;> rfl
theorem stepOpt_var (k : Str) (v : Option Str) (s : Str) : stepOpt k v (.var s) = .var s := by cases v <;> rfl

theorem opt_step (k : Str) (v : Option Str) (hk : Plain k) (toks : List Tok) (ht : ∀ t ∈ toks, t.Ok) (hv : ∀ t ∈ toks, t ≠ .var k) :
    replaceOpt (c!"{" ++ k ++ c!"}") v (toks.flatMap Tok.text) = (toks.map (stepOpt k v)).flatMap Tok.text := by
  cases v with
  | none => rw [stepOpt_none, List.map_id]; rfl
  | some v => rw [stepOpt_some, replaceOpt, pkg_step k v hk toks ht hv]

theorem ok_stepOpt {n : Str} {v : Option Str} (hv : ∀ x ∈ v, Plain x) {toks : List Tok} (ht : ∀ t ∈ toks, t.Ok) :
    ∀ t ∈ toks.map (stepOpt n v), t.Ok := by
  cases v with
  | none => rw [stepOpt_none, List.map_id]; exact ht
  | some v => rw [stepOpt_some]; exact ok_stepPkg (hv v rfl) ht

/-- All variables. -/
def stepVars (order : List (Str × Str)) (t : Tok) : Tok :=
  match t with
  | .var n => match mget order n with
    | some v => .lit v
    | none => .var n
  | t => t

theorem vars_steps (order : List (Str × Str)) (ho : ∀ e ∈ order, Plain e.1 ∧ Plain e.2) (toks : List Tok) (ht : ∀ t ∈ toks, t.Ok) :
    expandVars order (toks.flatMap Tok.text) = (toks.map (stepVars order)).flatMap Tok.text := by
  unfold expandVars
  induction order generalizing toks with
  | nil =>
    have : (stepVars []) = id := by
      funext t
      cases t <;> rfl
    rw [this, List.map_id]
    rfl
  | cons e order ih =>
    obtain ⟨n, v⟩ := e
    obtain ⟨hn, hv⟩ := ho _ List.mem_cons_self
    rw [List.foldl_cons, var_step n v hn toks ht, ih (fun e he => ho e (List.mem_cons_of_mem _ he)) _ (ok_stepVar hv ht), List.map_map]
    congr 1
    apply List.map_congr_left
    intro t _
    cases t with
    | lit s => rfl
    | pkg k => rfl
    | var m =>
      simp only [Function.comp, stepVar]
      by_cases h : m = n
      · subst h
        simp [stepVars, mget]
      · rw [if_neg h]
        simp only [stepVars, mget, if_neg (fun e => h e.symm : ¬ n = m)]

end ContextLemmas

/-- C117, partial: in the value of an export line every `{root}`, `{version}`, `{variant_index}` and `${NAME}` becomes its
value, whatever the order of the hash map, if the values and names are free of `$`, `{` and `}` and no referenced
variable is named like a key; unknown references stay.  Missing: other values (refuted below). -/
theorem C117_expand_partial (env order : List (Str × Str)) (hn : (mkeys env).Nodup) (hperm : env.Perm order)
    (he : ∀ e ∈ env, Plain e.1 ∧ Plain e.2) (r : Resolved) (hr : ∀ e ∈ keys r, Plain e.2) (toks : List Tok)
    (ht : ∀ t ∈ toks, t.Ok) :
    expandValue order r (toks.flatMap Tok.text) = toks.flatMap (Tok.value r (mget env)) := by
  have hvarpkg : ∀ (k : Str) (l : List Tok), (∀ t ∈ l, t.Ok) → (k = c!"root" ∨ k = c!"version" ∨ k = c!"variant_index") →
      ∀ t ∈ l, t ≠ .var k := by
    intro k l hl hk t htl heq
    subst heq
    have := hl _ htl
    rcases hk with rfl | rfl | rfl
    · exact this.2.1 rfl
    · exact this.2.2.1 rfl
    · exact this.2.2.2 rfl
  have p1 : Plain c!"root" := ⟨by decide, by decide, by decide⟩
  have p2 : Plain c!"version" := ⟨by decide, by decide, by decide⟩
  have p3 : Plain c!"variant_index" := ⟨by decide, by decide, by decide⟩
  unfold expandValue
  simp only
  have h1 : Plain r.root := hr (c!"root", r.root) (by simp [keys])
  have h2 : ∀ v ∈ r.pkg.version.map Version.asStr, Plain v := by
    intro v hv
    obtain ⟨w, hw, rfl⟩ := Option.map_eq_some_iff.mp hv
    exact hr (c!"version", w.asStr) (by simp [keys, hw])
  have h3 : ∀ v ∈ r.variant.map decimal, Plain v := by
    intro v hv
    obtain ⟨w, hw, rfl⟩ := Option.map_eq_some_iff.mp hv
    exact hr (c!"variant_index", decimal w) (by simp [keys, hw])
  rw [show c!"{root}" = c!"{" ++ c!"root" ++ c!"}" from rfl, pkg_step _ _ p1 toks ht (hvarpkg _ _ ht (Or.inl rfl))]
  have ht1 := ok_stepPkg (n := c!"root") h1 ht
  rw [show c!"{version}" = c!"{" ++ c!"version" ++ c!"}" from rfl,
    opt_step _ _ p2 _ ht1 (hvarpkg _ _ ht1 (Or.inr (Or.inl rfl)))]
  have ht2 := ok_stepOpt (n := c!"version") h2 ht1
  rw [show c!"{variant_index}" = c!"{" ++ c!"variant_index" ++ c!"}" from rfl,
    opt_step _ _ p3 _ ht2 (hvarpkg _ _ ht2 (Or.inr (Or.inr rfl)))]
  have ht3 := ok_stepOpt (n := c!"variant_index") h3 ht2
  rw [vars_steps order (fun e h => he e (hperm.mem_iff.mpr h)) _ ht3]
  simp only [List.map_map, List.flatMap_def]
  congr 1
  apply List.map_congr_left
  intro t _
  simp only [Function.comp]
  cases t with
  | lit s => simp only [stepPkg, stepOpt_lit]; rfl
  | var n =>
    simp only [stepPkg, stepOpt_var, stepVars, Tok.value]
    rw [mget_perm hperm hn]
    cases mget env n <;> rfl
  | pkg k =>
    simp only [stepPkg, Tok.value, keys]
    by_cases hk : k = c!"root"
    · subst hk
      rw [if_pos rfl, stepOpt_lit, stepOpt_lit]
      rfl
    · rw [if_neg hk]
      have hk' : ¬ c!"root" = k := fun e => hk e.symm
      by_cases hkv : k = c!"version"
      · subst hkv
        cases r.pkg.version <;> cases r.variant <;> rfl
      · have hkv' : ¬ c!"version" = k := fun e => hkv e.symm
        by_cases hki : k = c!"variant_index"
        · subst hki
          cases r.pkg.version <;> cases r.variant <;> rfl
        · have hki' : ¬ c!"variant_index" = k := fun e => hki e.symm
          cases r.pkg.version <;> cases r.variant <;>
            simp [stepOpt, stepVars, mget, hk', hkv, hkv', hki, hki']

namespace ContextLemmas
theorem contains_pass {p : Char} {ps w : Str} (h : p ∉ w) (s : Str) : containsStr (w ++ s) (p :: ps) = containsStr s (p :: ps) := by
  induction w with
  | nil => rfl
  | cons c w ih =>
    rw [List.mem_cons, not_or] at h
    rw [List.cons_append, containsStr, ih h.2]
    simp [List.isPrefixOf, h.1]

theorem no_ref (n : Str) (hn : Plain n) (toks : List Tok) (ht : ∀ t ∈ toks, t.Ok) (hv : ∀ t ∈ toks, t ≠ .var n) :
    containsStr (toks.flatMap Tok.text) ('$' :: ('{' :: n ++ c!"}")) = false := by
  induction toks with
  | nil => rfl
  | cons t toks ih =>
    have ih := ih (fun t h => ht t (List.mem_cons_of_mem _ h)) (fun t h => hv t (List.mem_cons_of_mem _ h))
    have hok := ht t List.mem_cons_self
    rw [List.flatMap_cons]
    cases t with
    | lit s =>
      rw [Tok.text, contains_pass (w := s) hok.1]
      exact ih
    | pkg k =>
      have hd : '$' ∉ (Tok.pkg k).text := by simp [Tok.text, hok.1]
      rw [contains_pass hd]
      exact ih
    | var m =>
      have hm : m ≠ n := fun e => hv _ List.mem_cons_self (by rw [e])
      have htext : (Tok.var m).text = '$' :: ('{' :: m ++ c!"}") := by simp [Tok.text]
      have hd : '$' ∉ '{' :: m ++ c!"}" := by simp [hok.1.1]
      rw [htext]
      show containsStr ('$' :: ('{' :: m ++ c!"}" ++ toks.flatMap Tok.text)) _ = false
      rw [containsStr, contains_pass hd, ih, Bool.or_false]
      cases hp : ('$' :: ('{' :: n ++ c!"}")).isPrefixOf ('$' :: ('{' :: m ++ c!"}" ++ toks.flatMap Tok.text)) with
      | false => rfl
      | true =>
        have h2 : (n ++ c!"}").isPrefixOf (m ++ '}' :: toks.flatMap Tok.text) = true := by
          simpa [List.isPrefixOf] using hp
        exact absurd (brace_prefix hn.2.2 hok.1.2.2 h2).symm hm

theorem replace_none (pat by_ s : Str) (h : containsStr s pat = false) : replaceAll pat by_ s = s := by
  unfold replaceAll
  induction s with
  | nil => simp [replaceAux]
  | cons c s ih =>
    rw [containsStr, Bool.or_eq_false_iff] at h
    rw [replaceAux, h.1, ih h.2]
    simp

theorem contains_of_infix {s p q : Str} (h : containsStr s p = false) (hpq : p <:+: q) : containsStr s q = false := by
  cases hq : containsStr s q with
  | false => rfl
  | true =>
    have := (containsStr_iff s p).mpr (hpq.trans ((containsStr_iff s q).mp hq))
    rw [h] at this
    cases this

theorem trimQuotes_of {s : Str} (h : '"' ∉ s) : Context.trimQuotes ('"' :: s ++ c!"\"") = s := by
  have hdrop : ∀ (l r : Str), '"' ∉ l → (l ++ r).dropWhile (· == '"') = if l = [] then r.dropWhile (· == '"') else l ++ r := by
    intro l r hl
    cases l with
    | nil => simp
    | cons c l =>
      rw [List.mem_cons, not_or] at hl
      rw [List.cons_append, List.dropWhile_cons_of_neg (by simpa using fun e => hl.1 e.symm)]
      simp
  unfold Context.trimQuotes
  rw [List.cons_append, List.dropWhile_cons_of_pos (by simp), hdrop s _ h]
  split
  · rename_i hs; subst hs; rfl
  · rename_i hs
    rw [List.reverse_append, List.reverse_singleton, List.singleton_append, List.dropWhile_cons_of_pos (by simp)]
    have := hdrop s.reverse [] (by simpa using h)
    rw [List.append_nil, if_neg (by simpa using hs)] at this
    rw [this, List.reverse_reverse]

/-- The text after the expansion. -/
def expanded (r : Resolved) (env : Str → Option Str) (t : Tok) : Tok :=
  match t with
  | .lit s => .lit s
  | .pkg k => match mget (keys r) k with | some v => .lit v | none => .pkg k
  | .var n => match env n with | some v => .lit v | none => .var n

theorem expanded_text (r : Resolved) (env : Str → Option Str) (t : Tok) : (expanded r env t).text = t.value r env := by
  cases t with
  | lit s => rfl
  | pkg k => simp only [expanded, Tok.value]; cases mget (keys r) k <;> rfl
  | var n => simp only [expanded, Tok.value]; cases env n <;> rfl

theorem expanded_ok {r : Resolved} {env : List (Str × Str)} (he : ∀ e ∈ env, Plain e.1 ∧ Plain e.2)
    (hr : ∀ e ∈ keys r, Plain e.2) {t : Tok} (ht : t.Ok) : (expanded r (mget env) t).Ok := by
  cases t with
  | lit s => exact ht
  | pkg k =>
    simp only [expanded]
    cases h : mget (keys r) k with
    | none => exact ht
    | some v => exact hr _ (mget_some_mem h)
  | var n =>
    simp only [expanded]
    cases h : mget env n with
    | none => exact ht
    | some v => exact (he _ (mget_some_mem h)).2
end ContextLemmas

/-- C117, partial: a line `export NAME="..."` for a variable that is set gives it the text with every reference, also the
ones to itself, replaced by the value before the line; nothing else changes.  Missing: values with `$`, `{`, `}` or quotes,
and variables that are not set (refuted below). -/
theorem C117_export_partial (iter : List (Str × Str) → List (Str × Str)) (hi : ∀ l, (iter l).Perm l) (env : List (Str × Str))
    (hn : (mkeys env).Nodup) (he : ∀ e ∈ env, Plain e.1 ∧ Plain e.2) (r : Resolved) (hr : ∀ e ∈ keys r, Plain e.2)
    (toks : List Tok) (ht : ∀ t ∈ toks, t.Ok) (hq : '"' ∉ toks.flatMap Tok.text) (name old : Str) (hset : mget env name = some old)
    (hname : ∀ c ∈ name, c ≠ '=' ∧ isWs c = false) (k : Str) :
    mget (applyExport iter r env (c!"export " ++ name ++ c!"=\"" ++ toks.flatMap Tok.text ++ c!"\"")) k =
      if k = name then some (toks.flatMap (Tok.value r (mget env))) else mget env k := by
  unfold applyExport
  have hdrop : (c!"export " ++ name ++ c!"=\"" ++ toks.flatMap Tok.text ++ c!"\"").drop 7 =
      name ++ '=' :: ('"' :: toks.flatMap Tok.text ++ c!"\"") := by simp
  rw [hdrop, splitOnce_eq fun h => (hname _ h).1 rfl]
  simp only
  rw [UtilLemmas.trim_noWs name fun c hc => (hname c hc).2, trimQuotes_of hq,
    C117_expand_partial env (iter env) hn (hi env).symm he r hr toks ht]
  have hval : toks.flatMap (Tok.value r (mget env)) = (toks.map (expanded r (mget env))).flatMap Tok.text := by
    rw [List.flatMap_map]
    congr 1
    funext t
    exact (expanded_text r (mget env) t).symm
  have hno : containsStr (toks.flatMap (Tok.value r (mget env))) ('$' :: ('{' :: name ++ c!"}")) = false := by
    rw [hval]
    apply no_ref name (he _ (mget_some_mem hset)).1
    · intro t h
      obtain ⟨t', h', rfl⟩ := List.mem_map.mp h
      exact expanded_ok he hr (ht t' h')
    · intro t h
      obtain ⟨t', h', rfl⟩ := List.mem_map.mp h
      cases t' with
      | lit s => simp [expanded]
      | pkg k =>
        simp only [expanded]
        cases mget (keys r) k <;> simp
      | var n =>
        simp only [expanded]
        cases hm : mget env n with
        | some v => simp
        | none =>
          intro heq
          simp only [Tok.var.injEq] at heq
          rw [heq, hset] at hm
          cases hm
  rw [replace_none _ _ _ (contains_of_infix hno ⟨[], c!":", by simp⟩), replace_none _ _ _ (contains_of_infix hno ⟨c!":", [], by simp⟩)]
  have hset' : ∀ m : List (Str × Str), m = mset env name (toks.flatMap (Tok.value r (mget env))) →
      mget m k = if k = name then some (toks.flatMap (Tok.value r (mget env))) else mget env k := by
    rintro _ rfl
    rw [mget_mset]
  split
  · exact hset' _ rfl
  · split
    · exact hset' _ rfl
    · exact hset' _ rfl

/-- C117 is false of variables that are not set: a shell takes the reference for empty text, here it stays, unless it has a
colon at its side. -/
theorem C117_unset_false (r : Resolved) (h : r = ⟨bare c!"a", none, c!"/a"⟩) :
    mget (applyExport id r [] c!"export X=\"lib${X}\"") c!"X" = some c!"lib${X}" ∧
    mget (applyExport id r [] c!"export X=\"${X}:b\"") c!"X" = some c!":b" ∧
    mget (applyExport id r [] c!"export X=\"${Y}:b\"") c!"X" = some c!"${Y}:b" := by
  subst h
  decide

example : mget (applyExport id ⟨{ bare c!"a" with version := Version.parse c!"1.2" }, some 0, c!"/p/a"⟩ [(c!"PATH", c!"/bin")]
    c!"export PATH=\"{root}/bin:${PATH}:/v{version}\"") c!"PATH" = some c!"/p/a/bin:/bin:/v1.2" := by decide +kernel

/-- C117 is false: with a variable whose value has a reference, the result depends on the order of the hash map. -/
theorem C117_order_false : ∃ order order' : List (Str × Str), order.Perm order' ∧
    expandVars order c!"${A}" = c!"x" ∧ expandVars order' c!"${A}" = c!"${B}" :=
  ⟨[(c!"A", c!"${B}"), (c!"B", c!"x")], [(c!"B", c!"x"), (c!"A", c!"${B}")], List.Perm.swap _ _ _, by decide, by decide⟩

end Rez.Props
