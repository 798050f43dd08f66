import Verif.Spec.BuildCommand
import Verif.Lemmas.Text
import Verif.Lemmas.VersionExtra
import Verif.Lemmas.RequirementParse
import Verif.Props.Rex
/-!
# Sources and the build command: C152–C154
-/
namespace Rez.Props
open Rez Rez.Build Rez.Build.Spec RexLemmas

/-! ## C152: the source of a package -/

namespace CommandLemmas

theorem solid_trim {u : Str} (h : Solid u) : trim u = u := trim_of_noWs h

theorem solid_append {u v : Str} (h : Solid u) (h' : Solid v) : Solid (u ++ v) := fun c hc =>
  (List.mem_append.mp hc).elim (h c) (h' c)

theorem pre_iff (p u : Str) : p.isPrefixOf u = true ↔ p <+: u := List.isPrefixOf_iff_prefix
theorem suf_iff (p u : Str) : p.isSuffixOf u = true ↔ p <:+ u := List.isSuffixOf_iff_suffix

theorem looks_iff (u : Str) : looksLikeGit u = true ↔
    c!"git://" <+: u ∨ c!"git@" <+: u ∨ c!".git" <:+ u ∨ Hosted u := by
  unfold looksLikeGit Hosted
  simp only [Bool.or_eq_true, pre_iff, suf_iff, containsStr_iff, or_assoc]

theorem hosted_append {u : Str} (h : Hosted u) (v : Str) : Hosted (u ++ v) := by
  rcases h with h | h | h
  · exact Or.inl (h.trans (List.prefix_append _ _).isInfix)
  · exact Or.inr (Or.inl (h.trans (List.prefix_append _ _).isInfix))
  · exact Or.inr (Or.inr (h.trans (List.prefix_append _ _).isInfix))

theorem hosted_after {v : Str} (h : Hosted v) (u : Str) : Hosted (u ++ v) := by
  rcases h with h | h | h
  · exact Or.inl (h.trans (List.suffix_append _ _).isInfix)
  · exact Or.inr (Or.inl (h.trans (List.suffix_append _ _).isInfix))
  · exact Or.inr (Or.inr (h.trans (List.suffix_append _ _).isInfix))

theorem web_http {u : Str} (h : Web u) : c!"http" <+: u := by
  rcases h with h | h
  · exact List.IsPrefix.trans (by decide) h
  · exact List.IsPrefix.trans (by decide) h

theorem parse_git {u : Str} (hs : Solid u) (h : looksLikeGit u = true) :
    parseSource u = ⟨(parseGitUrl u).1, .git, (parseGitUrl u).2, none⟩ := by
  unfold parseSource
  rw [solid_trim hs]
  exact if_pos h

theorem git_web {u r : Str} (h : c!"http" <+: u) (hr : '@' ∉ r) : parseGitUrl (u ++ '@' :: r) = (u, some r) := by
  unfold parseGitUrl
  rw [rsplitOnce_append u hr]
  have := (pre_iff _ _).mpr h
  simp [this]

theorem git_none {u : Str} (h : '@' ∉ u) : parseGitUrl u = (u, none) := by
  unfold parseGitUrl
  rw [rsplitOnce_absent h]

end CommandLemmas
open CommandLemmas

/-- C152: a repository at one of the known places, with or without a branch, tag or commit after an `@`, is that repository
and that reference.  Missing: URLs and references that have an `@` (see `C152_user_false`). -/
theorem C152_hosted_partial (u : Str) (ref : Option Str) (hw : Web u) (hh : Hosted u) (hu : '@' ∉ u)
    (hr : ∀ r, ref = some r → '@' ∉ r) (hs : Solid (u ++ marked ref)) :
    parseSource (u ++ marked ref) = ⟨u, .git, ref, none⟩ := by
  rw [parse_git hs ((looks_iff _).mpr (Or.inr (Or.inr (Or.inr (hosted_append hh _)))))]
  cases ref with
  | none => simp [marked, git_none hu]
  | some r => simp [marked, git_web (web_http hw) (hr r rfl)]

example : parseSource c!" https://github.com/user/repo@v1.0.0 " =
    ⟨c!"https://github.com/user/repo", .git, some c!"v1.0.0", none⟩ := by decide +kernel
example : Web c!"https://github.com/user/repo" ∧ Hosted c!"https://github.com/user/repo" := by
  constructor
  · exact Or.inr (by decide)
  · exact Or.inl ⟨c!"https://", c!"/user/repo", rfl⟩

/-- C152 is false of URLs with a user or a token: the repository is then taken to be the part before the `@`, and the host
and path to be the reference, whatever they are. -/
theorem C152_user_false (user rest : Str) (hh : Hosted rest) (hr : '@' ∉ rest) (hu : Solid user) (hs : Solid rest) :
    parseSource (c!"https://" ++ user ++ '@' :: rest) = ⟨c!"https://" ++ user, .git, some rest, none⟩ := by
  have hs' : Solid (c!"https://" ++ user ++ '@' :: rest) :=
    solid_append (solid_append (by unfold Solid; decide) hu) (solid_append (u := ['@']) (by unfold Solid; decide) hs)
  have hh' : Hosted (c!"https://" ++ user ++ '@' :: rest) := by
    simpa using hosted_after hh (c!"https://" ++ user ++ ['@'])
  rw [parse_git hs' ((looks_iff _).mpr (Or.inr (Or.inr (Or.inr hh')))), git_web _ hr]
  exact List.IsPrefix.trans (by decide : c!"http" <+: c!"https://") (List.prefix_append _ _)

/-- C152: `git@host:path` is that repository.  Missing: a reference after it. -/
theorem C152_ssh_partial (host path : Str) (h : '@' ∉ host) (h' : '@' ∉ path) (hs : Solid host) (hs' : Solid path) :
    parseSource (c!"git@" ++ host ++ ':' :: path) = ⟨c!"git@" ++ host ++ ':' :: path, .git, none, none⟩ := by
  have hs' : Solid (c!"git@" ++ host ++ ':' :: path) :=
    solid_append (solid_append (by unfold Solid; decide) hs) (solid_append (u := [':']) (by unfold Solid; decide) hs')
  rw [parse_git hs' ((looks_iff _).mpr (Or.inr (Or.inl ⟨host ++ ':' :: path, by simp⟩)))]
  have e : c!"git@" ++ host ++ ':' :: path = c!"git" ++ '@' :: (host ++ ':' :: path) := by simp
  have : parseGitUrl (c!"git@" ++ host ++ ':' :: path) = (c!"git@" ++ host ++ ':' :: path, none) := by
    unfold parseGitUrl
    rw [e, rsplitOnce_append _ (by simp [h, h'])]
    rfl
  rw [this]

/-- C152 is false of `git@host:path@ref`, a form that is given as an example in the code: the repository is always taken to be
`git`. -/
theorem C152_ssh_false (host path ref : Str) (h : '@' ∉ host) (h' : '@' ∉ path) (hr : '@' ∉ ref) (hs : Solid host)
    (hs' : Solid path) (hs'' : Solid ref) :
    parseSource (c!"git@" ++ host ++ ':' :: path ++ marked (some ref)) = ⟨c!"git", .git, some ref, none⟩ := by
  have hs' : Solid (c!"git@" ++ host ++ ':' :: path ++ marked (some ref)) :=
    solid_append (solid_append (solid_append (by unfold Solid; decide) hs)
      (solid_append (u := [':']) (by unfold Solid; decide) hs')) (solid_append (u := ['@']) (by unfold Solid; decide) hs'')
  rw [parse_git hs' ((looks_iff _).mpr (Or.inr (Or.inl ⟨host ++ ':' :: path ++ marked (some ref), by simp⟩)))]
  have : parseGitUrl (c!"git@" ++ host ++ ':' :: path ++ marked (some ref)) = (c!"git", some ref) := by
    unfold parseGitUrl marked
    rw [rsplitOnce_append _ hr]
    have e : c!"git@" ++ host ++ ':' :: path = c!"git" ++ '@' :: (host ++ ':' :: path) := by simp
    have e2 : rsplitOnce '@' (c!"git@" ++ host ++ ':' :: path) = some (c!"git", host ++ ':' :: path) := by
      rw [e, rsplitOnce_append _ (by simp [h, h'])]
    simp only [e2]
    rw [if_pos]
    simp [List.isPrefixOf]
  rw [this]

example : parseSource c!"git@github.com:user/repo@main" = ⟨c!"git", .git, some c!"main", none⟩ := by decide +kernel

/-- C152: a URL elsewhere on the web that does not end in `.git` is downloaded as it is. -/
theorem C152_archive_partial (u : Str) (hw : Web u) (hh : ¬ Hosted u) (hg : ¬ c!".git" <:+ u) (hs : Solid u) :
    parseSource u = ⟨u, .http, none, none⟩ := by
  have hn : looksLikeGit u = false := by
    rw [← Bool.not_eq_true, looks_iff]
    have h1 := web_http hw
    rintro (h | h | h | h)
    · obtain ⟨a, rfl⟩ := h; obtain ⟨b, hb⟩ := h1; cases hb
    · obtain ⟨a, rfl⟩ := h; obtain ⟨b, hb⟩ := h1; cases hb
    · exact hg h
    · exact hh h
  have hw' : (c!"http://".isPrefixOf u || c!"https://".isPrefixOf u) = true := by
    simp only [Bool.or_eq_true, pre_iff]; exact hw
  unfold parseSource
  rw [solid_trim hs]
  simp only [hn, hw', Bool.false_eq_true, if_false, if_true]

/-- C152 is false of archives at the known places, such as the files of a release: they are taken for repositories. -/
theorem C152_archive_false (u : Str) (hh : Hosted u) (hu : '@' ∉ u) (hs : Solid u) :
    parseSource u = ⟨u, .git, none, none⟩ := by
  rw [parse_git hs ((looks_iff _).mpr (Or.inr (Or.inr (Or.inr hh)))), git_none hu]

example : parseSource c!"https://github.com/u/r/releases/download/v1/r.tar.gz" =
    ⟨c!"https://github.com/u/r/releases/download/v1/r.tar.gz", .git, none, none⟩ := by decide +kernel

/-- C152 is false of repositories elsewhere that are given with a reference: they are downloaded, and the reference is taken
for a part of the URL. -/
theorem C152_elsewhere_false : ∃ u r, Web u ∧ c!".git" <:+ u ∧ parseSource (u ++ marked (some r)) =
    ⟨u ++ marked (some r), .http, none, none⟩ :=
  ⟨c!"https://git.example.org/r.git", c!"v1", Or.inr (by decide), by decide, by decide +kernel⟩

/-- C152: a repository that is given with `ssh://`, with a user or without, is that repository. -/
theorem C152_scheme_partial (rest : Str) (hs : Solid rest)
    (h : '@' ∉ rest ∨ ∃ user host, rest = user ++ '@' :: host ∧ '@' ∉ user ∧ '@' ∉ host) :
    parseSource (c!"ssh://" ++ rest) = ⟨c!"ssh://" ++ rest, .git, none, none⟩ := by
  have hs' : Solid (c!"ssh://" ++ rest) := solid_append (by unfold Solid; decide) hs
  by_cases hl : looksLikeGit (c!"ssh://" ++ rest) = true
  · rw [parse_git hs' hl]
    have : parseGitUrl (c!"ssh://" ++ rest) = (c!"ssh://" ++ rest, none) := by
      rcases h with h | ⟨user, host, rfl, h1, h2⟩
      · exact git_none (by simp [h])
      · unfold parseGitUrl
        have e : c!"ssh://" ++ (user ++ '@' :: host) = c!"ssh://" ++ user ++ '@' :: host := by simp
        rw [e, rsplitOnce_append _ h2]
        have e2 : rsplitOnce '@' (c!"ssh://" ++ user) = none := rsplitOnce_absent (by simp [h1])
        simp only [e2]
        rw [if_pos]
        simp [List.isPrefixOf]
    rw [this]
  · unfold parseSource
    rw [solid_trim hs']
    simp only [hl, Bool.false_eq_true, if_false]
    rw [if_neg (by simp [List.isPrefixOf]), if_pos (by simp [List.isPrefixOf])]

/-- C152: a path is taken as one, if it does not name one of the known places and does not end in `.git`. -/
theorem C152_local_partial (u : Str) (hl : LocalPath u) (hh : ¬ Hosted u) (hg : ¬ c!".git" <:+ u) (hs : Solid u) :
    parseSource u = ⟨u, .local_, none, none⟩ := by
  have hno : ∀ s ∈ [c!"http://", c!"https://", c!"ssh://", c!"git://", c!"git@"], s.isPrefixOf u = false := by
    intro s hs
    rw [← Bool.not_eq_true, pre_iff]
    exact hl s hs
  have hn : looksLikeGit u = false := by
    rw [← Bool.not_eq_true, looks_iff]
    rintro (h | h | h | h)
    · exact hl _ (by simp) h
    · exact hl _ (by simp) h
    · exact hg h
    · exact hh h
  unfold parseSource
  rw [solid_trim hs]
  rw [if_neg (by simp [hn]), if_neg (by simp only [hno c!"http://" (by simp), hno c!"https://" (by simp)]; simp),
    if_neg (by simp only [hno c!"ssh://" (by simp)]; simp)]

example : LocalPath c!"./my-package" ∧ ¬ Hosted c!"./my-package" ∧ ¬ c!".git" <:+ c!"./my-package" := by
  refine ⟨by unfold LocalPath; decide, ?_, by decide⟩
  unfold Hosted
  simp only [← containsStr_iff]
  decide

/-- C152 is false of paths below a directory that is called like a known place. -/
theorem C152_local_false : ∃ u, LocalPath u ∧ (parseSource u).kind = .git :=
  ⟨c!"/home/me/github.com/u/r", by unfold LocalPath; decide, by decide +kernel⟩

/-- C152: what is fetched: the whole repository and then the reference, which is that of the command line if it gives one and
that of the URL otherwise; without a reference only the newest state. -/
theorem C152_fetch (text : Str) (subdir reference : Option Str) (dir : Str) :
    let s := withOptions (parseSource text) subdir reference
    let want := reference.or (parseSource text).reference
    s.url = (parseSource text).url ∧ s.kind = (parseSource text).kind ∧ s.subdirectory = subdir ∧
    (∀ r, want = some r → gitCalls s dir = [[c!"clone", s.url, dir], [c!"checkout", r]]) ∧
    (want = none → gitCalls s dir = [[c!"clone", c!"--depth", c!"1", s.url, dir]]) := by
  have hsub : (parseSource text).subdirectory = none := by
    unfold parseSource
    dsimp only
    split
    · rfl
    · split
      · rfl
      · split <;> rfl
  intro s want
  have hs : s.reference = want := by
    show (withOptions _ _ _).reference = _
    unfold withOptions
    cases subdir <;> cases reference <;> simp [want]
  refine ⟨?_, ?_, ?_, ?_, ?_⟩
  · show (withOptions _ _ _).url = _
    unfold withOptions
    cases subdir <;> cases reference <;> rfl
  · show (withOptions _ _ _).kind = _
    unfold withOptions
    cases subdir <;> cases reference <;> rfl
  · show (withOptions _ _ _).subdirectory = _
    unfold withOptions
    cases subdir <;> cases reference <;> simp [hsub]
  · intro r hr
    simp [gitCalls, hs, hr]
  · intro hr
    simp [gitCalls, hs, hr]

/-! ## C153: where a download is written -/

namespace CommandLemmas

theorem follow_append (acc l m : List Str) : follow acc (l ++ m) = follow (follow acc l).reverse m := by
  induction l generalizing acc with
  | nil => simp [follow]
  | cons x l ih =>
    simp only [List.cons_append, follow]
    split
    · exact ih _
    · split
      · exact ih _
      · exact ih _

theorem parts_join {dir n : Str} (hd : dir ≠ []) (hn : PlainName n) : parts (pjoin dir n) = parts dir ++ [n] := by
  obtain ⟨h1, h2, h3, h4⟩ := hn
  have hh : n.head? ≠ some '/' := by
    intro h
    exact h2 (List.mem_of_mem_head? (by rw [h]; rfl))
  have one : ∀ acc : List Str, follow acc [n] = acc.reverse ++ [n] := by
    intro acc
    simp [follow, h1, h3, h4]
  unfold pjoin
  rw [if_neg hh, if_neg hd]
  split
  · rename_i hl
    obtain ⟨d, rfl⟩ : ∃ d, dir = d ++ ['/'] := by
      refine ⟨dir.dropLast, ?_⟩
      have := List.dropLast_append_getLast? '/' hl
      exact this.symm
    unfold parts
    have e1 : splitChar '/' (d ++ ['/']) = splitChar '/' d ++ [[]] := by
      have := splitChar_two '/' d []
      simpa [splitChar] using this
    have e2 : splitChar '/' (d ++ ['/'] ++ n) = splitChar '/' d ++ [n] := by
      have := splitChar_two '/' d n
      rw [splitChar_noSep h2] at this
      simpa using this
    rw [e1, e2, follow_append, follow_append, one]
    simp [follow]
  · unfold parts
    rw [splitChar_two, splitChar_noSep h2, follow_append, one]
    simp

end CommandLemmas
open CommandLemmas

/-- C153: a download is written below the directory for temporary files, if the name that the server gives, if any, is the
name of a file. -/
theorem C153_download_partial (temp : Str) (ht : temp ≠ []) (header segment : Option Str)
    (hh : ∀ h n, header = some h → headerName h = some n → PlainName n)
    (hs : ∀ s, segment = some s → s = [] ∨ PlainName s) : Below temp (downloadPath temp header segment) := by
  have hn : PlainName (downloadName header segment) := by
    unfold downloadName
    split
    · rename_i n hb
      obtain ⟨h, h1, h2⟩ := Option.bind_eq_some_iff.mp hb
      exact hh h n h1 h2
    · split
      · rename_i s
        by_cases h : s = []
        · rw [if_pos h]; unfold PlainName; decide
        · rw [if_neg h]; exact (hs s rfl).resolve_left h
      · unfold PlainName; decide
  have hd : pjoin temp c!"download" ≠ [] := by
    unfold pjoin
    split
    · decide
    · split <;> simp
  unfold downloadPath Below
  rw [parts_join hd hn, parts_join ht (by unfold PlainName; decide)]
  refine ⟨by simp, ?_⟩
  intro h
  have := congrArg List.length h
  simp at this

example : downloadPath c!"/tmp/x" (some c!"attachment; filename=\"p.zip\"") none = c!"/tmp/x/download/p.zip" := by decide

/-- C153 is false of names that the server chooses: they are used as they come, so that a download is written to any file the
server likes. -/
theorem C153_download_false (temp target : Str) (hq : '"' ∉ target) (hs : ';' ∉ target) (hw : Solid target)
    (ha : target.head? = some '/') (segment : Option Str) :
    downloadPath temp (some (c!"attachment; filename=" ++ target)) segment = target := by
  have hname : headerName (c!"attachment; filename=" ++ target) = some target := by
    unfold headerName
    have e : c!"attachment; filename=" ++ target = c!"attachment" ++ ';' :: (c!" filename=" ++ target) := by simp
    rw [e, splitChar_append (by decide), splitChar_noSep (by simp [hs])]
    have ht : trim (c!" filename=" ++ target) = c!"filename=" ++ target := by
      have hsol : Solid (c!"filename=" ++ target) := solid_append (by unfold Solid; decide) hw
      have : trimStart (c!" filename=" ++ target) = trimStart (c!"filename=" ++ target) := by
        unfold trimStart
        show List.dropWhile isWs (' ' :: (c!"filename=" ++ target)) = _
        rw [List.dropWhile_cons_of_pos (by decide)]
      have h2 := solid_trim hsol
      unfold trim at h2 ⊢
      rw [this, h2]
    have hq2 : trimQuotes target = target := by
      have d : ∀ l : Str, '"' ∉ l → l.dropWhile (· == '"') = l := by
        intro l hl
        cases l with
        | nil => rfl
        | cons c l =>
          rw [List.dropWhile_cons_of_neg]
          simp only [List.mem_cons, not_or] at hl
          simpa using fun h => hl.1 h.symm
      unfold trimQuotes
      rw [d _ hq, d _ (by simpa using hq), List.reverse_reverse]
    rw [List.findSome?_cons]
    have h1 : (c!"filename=".isPrefixOf (trim c!"attachment")) = false := by decide
    simp only [h1, Bool.false_eq_true, if_false]
    rw [List.findSome?_cons]
    simp only [ht]
    rw [if_pos (by simp [List.isPrefixOf])]
    simp [hq2]
  unfold downloadPath downloadName
  simp only [Option.bind_some, hname]
  unfold pjoin
  rw [if_pos ha]

/-- C153: so does a name with `..`. -/
theorem C153_dots_false : ∃ header, ¬ Below c!"/tmp/x" (downloadPath c!"/tmp/x" (some header) none) :=
  ⟨c!"filename=../../../home/me/.profile", by unfold Below; decide⟩

/-! ## C154: the builds of a command -/

namespace CommandLemmas

theorem firsts_fold (l : List Str) : ∀ acc done : List Str, FirstsOf acc done →
    FirstsOf (l.foldl (fun l r => if r ∈ l then l else l ++ [r]) acc) (done ++ l) := by
  induction l with
  | nil => intro acc done h; simpa using h
  | cons x l ih =>
    intro acc done h
    rw [List.foldl_cons]
    have e : done ++ x :: l = (done ++ [x]) ++ l := by simp
    rw [e]
    apply ih
    obtain ⟨h1, h2, h3⟩ := h
    by_cases hx : x ∈ acc
    · rw [if_pos hx]
      have hd := (h2 x).mp hx
      refine ⟨h1, fun r => ?_, fun r hr s hs => ?_⟩
      · rw [h2, List.mem_append, List.mem_singleton]
        exact ⟨Or.inl, fun h => h.elim id fun h => h ▸ hd⟩
      · have mem : ∀ r, r ∈ done ++ [x] → r ∈ done := by
          intro r hr
          rcases List.mem_append.mp hr with h | h
          · exact h
          · rw [List.mem_singleton.mp h]; exact hd
        rw [List.idxOf_append_of_mem (mem r hr), List.idxOf_append_of_mem (mem s hs)]
        exact h3 r (mem r hr) s (mem s hs)
    · rw [if_neg hx]
      have hd : x ∉ done := fun h => hx ((h2 x).mpr h)
      refine ⟨?_, fun r => ?_, fun r hr s hs => ?_⟩
      · rw [List.nodup_append]
        exact ⟨h1, by simp, fun a ha b hb => by rw [List.mem_singleton.mp hb]; rintro rfl; exact hx ha⟩
      · simp only [List.mem_append, List.mem_singleton, h2]
      · have lt : ∀ r ∈ done, acc.idxOf r < acc.length ∧ done.idxOf r < done.length :=
          fun r hr => ⟨List.idxOf_lt_length_iff.mpr ((h2 r).mpr hr), List.idxOf_lt_length_iff.mpr hr⟩
        have old : ∀ r ∈ done, (acc ++ [x]).idxOf r = acc.idxOf r ∧ (done ++ [x]).idxOf r = done.idxOf r :=
          fun r hr => ⟨List.idxOf_append_of_mem ((h2 r).mpr hr), List.idxOf_append_of_mem hr⟩
        have new : (acc ++ [x]).idxOf x = acc.length ∧ (done ++ [x]).idxOf x = done.length :=
          ⟨by rw [List.idxOf_append_of_notMem hx]; simp, by rw [List.idxOf_append_of_notMem hd]; simp⟩
        rcases List.mem_append.mp hr with hr | hr <;> rcases List.mem_append.mp hs with hs | hs
        · rw [(old r hr).1, (old s hs).1, (old r hr).2, (old s hs).2]
          exact h3 r hr s hs
        · rw [List.mem_singleton.mp hs, (old r hr).1, (old r hr).2, new.1, new.2]
          have := lt r hr
          omega
        · rw [List.mem_singleton.mp hr, (old s hs).1, (old s hs).2, new.1, new.2]
          have := lt s hs
          omega
        · rw [List.mem_singleton.mp hr, List.mem_singleton.mp hs]
          simp

theorem firsts_pairwise {a l : List Str} (ha : FirstsOf a l) : a.Pairwise fun r s => l.idxOf r < l.idxOf s := by
  rw [List.pairwise_iff_getElem]
  intro i j hi hj hij
  refine (ha.2.2 _ ((ha.2.1 _).mp (List.getElem_mem hi)) _ ((ha.2.1 _).mp (List.getElem_mem hj))).mp ?_
  rw [ha.1.idxOf_getElem, ha.1.idxOf_getElem]
  exact hij

theorem firsts_unique {a b l : List Str} (ha : FirstsOf a l) (hb : FirstsOf b l) : a = b := by
  refine List.Perm.eq_of_pairwise (le := fun r s => l.idxOf r < l.idxOf s) ?_ (firsts_pairwise ha) (firsts_pairwise hb) ?_
  · intro x y _ _ h h'
    omega
  · exact (List.perm_ext_iff_of_nodup ha.1 hb.1).mpr fun r => by rw [ha.2.1, hb.2.1]

end CommandLemmas

/-- C154: a package is built with the requirements of itself and of the variant, each once, in their order. -/
theorem C154_requirements (p : Wanted) (v : Option Nat) :
    FirstsOf (buildRequirements p.requires p.buildRequires p.privateRequires (v.map fun i => p.variants[i]?.getD []))
      (AllRequirements p v) := by
  have := firsts_fold (AllRequirements p v) [] [] ⟨List.nodup_nil, by simp, by simp⟩
  simpa [buildRequirements, AllRequirements] using this

namespace CommandLemmas

theorem one_ok {W : Type} (b : Builder W) (p : Wanted) (v : Option Nat) (hv : p.variants = [] ∨ v.isSome = true) (w w' : W) :
    buildOne b p v w = (w', true) ↔ BuiltOne b p v w w' := by
  have hreq := C154_requirements p v
  have hv' : (!p.variants.isEmpty && v.isNone) = false := by
    rcases hv with h | h
    · simp [h]
    · cases v <;> simp at h ⊢
  unfold buildOne BuiltOne
  dsimp only
  rw [hv']
  generalize buildRequirements p.requires p.buildRequires p.privateRequires
    (v.map fun i => p.variants[i]?.getD []) = reqs at hreq
  constructor
  · intro h
    by_cases he : reqs = []
    · subst he
      simp at h
      exact ⟨w, [], hreq, Or.inl ⟨rfl, rfl⟩, h⟩
    · have hb : reqs.isEmpty = false := by simpa using he
      rw [hb] at h
      simp only [Bool.false_eq_true, if_false] at h
      cases hr : b.resolve reqs w with
      | mk w₁ ok =>
        rw [hr] at h
        cases ok with
        | false => simp at h
        | true => exact ⟨w₁, reqs, hreq, Or.inr ⟨he, hr⟩, by simpa using h⟩
  · rintro ⟨w₁, r', h1, h2, h3⟩
    obtain rfl := firsts_unique h1 hreq
    rcases h2 with ⟨rfl, rfl⟩ | ⟨he, hr⟩
    · simpa using h3
    · have hb : r'.isEmpty = false := by simpa using he
      simp [hb, hr, h3]

theorem one_failed {W : Type} (b : Builder W) (p : Wanted) (v : Option Nat) (hv : p.variants = [] ∨ v.isSome = true) (w w' : W) :
    buildOne b p v w = (w', false) ↔ FailedOne b p v w w' := by
  have hreq := C154_requirements p v
  have hv' : (!p.variants.isEmpty && v.isNone) = false := by
    rcases hv with h | h
    · simp [h]
    · cases v <;> simp at h ⊢
  unfold buildOne FailedOne
  dsimp only
  rw [hv']
  generalize buildRequirements p.requires p.buildRequires p.privateRequires
    (v.map fun i => p.variants[i]?.getD []) = reqs at hreq
  constructor
  · intro h
    refine ⟨reqs, hreq, ?_⟩
    by_cases he : reqs = []
    · subst he
      simp at h
      exact Or.inr ⟨w, Or.inl ⟨rfl, rfl⟩, h⟩
    · have hb : reqs.isEmpty = false := by simpa using he
      rw [hb] at h
      simp only [Bool.false_eq_true, if_false] at h
      cases hr : b.resolve reqs w with
      | mk w₁ ok =>
        rw [hr] at h
        cases ok with
        | false => exact Or.inl ⟨he, by simpa using h⟩
        | true => exact Or.inr ⟨w₁, Or.inr ⟨he, rfl⟩, by simpa using h⟩
  · rintro ⟨r', h1, h2⟩
    obtain rfl := firsts_unique h1 hreq
    rcases h2 with ⟨he, hr⟩ | ⟨w₁, ⟨rfl, rfl⟩ | ⟨he, hr⟩, h3⟩
    · have hb : r'.isEmpty = false := by simpa using he
      simp [hb, hr]
    · simpa using h3
    · have hb : r'.isEmpty = false := by simpa using he
      simp [hb, hr, h3]

theorem runs_chosen {asked : Option (List Nat)} {n : Nat} {l : List (Option Nat)} (h : Runs asked n l) :
    chosenVariants asked n = some l := by
  cases h with
  | plain => rfl
  | all _ h => simp [chosenVariants, Nat.pos_iff_ne_zero.mp h]
  | some_ l _ h hr =>
    have hf : l.filter (· < n) = l := List.filter_eq_self.mpr fun i hi => by simpa using hr i hi
    have he : l.isEmpty = false := by simpa using h
    simp [chosenVariants, hf, he]

theorem runs_fit {asked : Option (List Nat)} {p : Wanted} {l : List (Option Nat)} (h : Runs asked p.variants.length l) :
    ∀ v ∈ l, p.variants = [] ∨ v.isSome = true := by
  generalize hn : p.variants.length = n at h
  cases h with
  | plain => intro v _; exact Or.inl (List.length_eq_zero_iff.mp hn)
  | all _ h => intro v hv; obtain ⟨i, _, rfl⟩ := List.mem_map.mp hv; exact Or.inr rfl
  | some_ l _ h hr => intro v hv; obtain ⟨i, _, rfl⟩ := List.mem_map.mp hv; exact Or.inr rfl

end CommandLemmas
open CommandLemmas

/-- C154: a command that succeeds has built the variants that were asked for, or all of them, or the package as it is if it
has none; and it succeeds if they can be built one after the other. -/
theorem C154_success_partial {W : Type} (b : Builder W) (p : Wanted) (asked : Option (List Nat)) (l : List (Option Nat))
    (h : Runs asked p.variants.length l) (w w' : W) :
    buildCommand b p asked w = (w', true) ↔ Built b p l w w' := by
  unfold buildCommand
  rw [runs_chosen h]
  show buildAll b p l w = (w', true) ↔ _
  have hf := runs_fit h
  clear h
  induction l generalizing w with
  | nil =>
    constructor
    · intro e
      simp only [buildAll, Prod.mk.injEq, and_true] at e
      exact e ▸ .nil w
    · intro e; cases e; rfl
  | cons v l ih =>
    have one := fun w₁ => one_ok b p v (hf v List.mem_cons_self) w w₁
    have ih := fun w => ih w (fun x hx => hf x (List.mem_cons_of_mem _ hx))
    unfold buildAll
    dsimp only
    cases hr : buildOne b p v w with
    | mk w₁ ok =>
      cases ok with
      | true =>
        simp only [if_true]
        refine (ih w₁).trans ?_
        constructor
        · exact fun e => .cons ((one _).mp hr) e
        · intro e
          cases e with
          | cons e1 e2 =>
            have := (one _).mpr e1
            rw [hr] at this
            cases this
            exact e2
      | false =>
        simp only [Bool.false_eq_true, if_false, Prod.mk.injEq, and_false, false_iff]
        intro e
        cases e with
        | cons e1 e2 =>
          have := (one _).mpr e1
          rw [hr] at this
          cases this

/-- C154: a command that fails has built the variants before one that failed, and nothing after it. -/
theorem C154_failure_partial {W : Type} (b : Builder W) (p : Wanted) (asked : Option (List Nat)) (l : List (Option Nat))
    (h : Runs asked p.variants.length l) (w w' : W) :
    buildCommand b p asked w = (w', false) ↔
      ∃ pre v post w₁, l = pre ++ v :: post ∧ Built b p pre w w₁ ∧ FailedOne b p v w₁ w' := by
  unfold buildCommand
  rw [runs_chosen h]
  show buildAll b p l w = (w', false) ↔ _
  have hf := runs_fit h
  clear h
  induction l generalizing w with
  | nil => simp [buildAll]
  | cons v l ih =>
    have one := fun w₁ => one_ok b p v (hf v List.mem_cons_self) w w₁
    have bad := fun w₁ => one_failed b p v (hf v List.mem_cons_self) w w₁
    have ih := fun w => ih w (fun x hx => hf x (List.mem_cons_of_mem _ hx))
    unfold buildAll
    dsimp only
    cases hr : buildOne b p v w with
    | mk w₁ ok =>
      cases ok with
      | true =>
        simp only [if_true]
        refine (ih w₁).trans ?_
        constructor
        · rintro ⟨pre, x, post, w₂, rfl, h1, h2⟩
          exact ⟨v :: pre, x, post, w₂, rfl, .cons ((one _).mp hr) h1, h2⟩
        · rintro ⟨pre, x, post, w₂, e, h1, h2⟩
          cases h1 with
          | nil =>
            simp only [List.nil_append, List.cons.injEq] at e
            obtain ⟨rfl, rfl⟩ := e
            have := (bad _).mpr h2
            rw [hr] at this
            cases this
          | @cons v' pre' w w₁' w₂ h3 h4 =>
            simp only [List.cons_append, List.cons.injEq] at e
            obtain ⟨rfl, rfl⟩ := e
            have := (one _).mpr h3
            rw [hr] at this
            cases this
            exact ⟨_, _, _, _, rfl, h4, h2⟩
      | false =>
        simp only [Bool.false_eq_true, if_false, Prod.mk.injEq, and_true]
        constructor
        · rintro rfl
          exact ⟨[], v, l, w, rfl, .nil w, (bad _).mp hr⟩
        · rintro ⟨pre, x, post, w₂, e, h1, h2⟩
          cases h1 with
          | nil =>
            simp only [List.nil_append, List.cons.injEq] at e
            obtain ⟨rfl, rfl⟩ := e
            have := (bad _).mpr h2
            rw [hr] at this
            cases this
            rfl
          | @cons v' pre' w w₁' w₂ h3 h4 =>
            simp only [List.cons_append, List.cons.injEq] at e
            obtain ⟨rfl, rfl⟩ := e
            have := (one _).mpr h3
            rw [hr] at this
            cases this

/-- A package with two variants, and a machine that writes down what it builds. -/
def twoVariants : Wanted := ⟨[c!"a"], [], [], [[c!"b"], [c!"a", c!"c"]]⟩
/-- A machine that writes down what it is asked for, and always succeeds. -/
def scribe : Builder (List (List Str × Option (Option Nat))) :=
  ⟨fun l w => (w ++ [(l, none)], true), fun v w => (w ++ [([], some v)], true)⟩

example : buildCommand scribe twoVariants none [] =
    ([([c!"a", c!"b"], none), ([], some (some 0)), ([c!"a", c!"c"], none), ([], some (some 1))], true) := by decide
example : Runs none twoVariants.variants.length [some 0, some 1] := .all 2 (by decide)

/-- C154 is false of variants that are not there: the command succeeds although one of the variants asked for was not built. -/
theorem C154_missing_false : ∃ (p : Wanted) (l : List Nat), 7 ∈ l ∧ (buildCommand scribe p (some l) []).2 = true ∧
    ([], some (some 7)) ∉ (buildCommand scribe p (some l) []).1 :=
  ⟨twoVariants, [0, 7], by decide, by decide, by decide⟩

/-- C154: an index that is not there is never built, and if none of those asked for is there the command fails and does
nothing. -/
theorem C154_range {W : Type} (b : Builder W) (p : Wanted) (l : List Nat) (h : l ≠ []) (hr : ∀ i ∈ l, p.variants.length ≤ i) (w : W) :
    buildCommand b p (some l) w = (w, false) := by
  have hf : l.filter (· < p.variants.length) = [] := List.filter_eq_nil_iff.mpr fun i hi => by simpa using hr i hi
  have he : l.isEmpty = false := by simpa using h
  simp [buildCommand, chosenVariants, hf, he]

/-- C154: with some indices that are not there, the others are built as if only they had been given. -/
theorem C154_skip {W : Type} (b : Builder W) (p : Wanted) (l : List Nat) (h : ∃ i ∈ l, i < p.variants.length) (w : W) :
    buildCommand b p (some l) w = buildCommand b p (some (l.filter (· < p.variants.length))) w := by
  obtain ⟨i, hi, hlt⟩ := h
  have hm : i ∈ l.filter (· < p.variants.length) := by simp [hi, hlt]
  have he : (l.filter (· < p.variants.length)).isEmpty = false := by
    rw [List.isEmpty_eq_false_iff]
    exact List.ne_nil_of_mem hm
  simp [buildCommand, chosenVariants, he]

/-- C154 is false of five options: nothing depends on whether the build is to be cleaned first, done again, written as scripts,
done with another system, or given further arguments for the child build. -/
theorem C154_options_false (f : Flags) (clean force scripts : Bool) (system : Option Str) (child : Option (List Str)) :
    stepOptions { f with clean := clean, force := force, scripts := scripts, system := system, childArgs := child } =
      stepOptions f := rfl

/-- C154: the tests are left out exactly if that is asked for, a release is built exactly if that is asked for, and the
arguments of the build are those given. -/
theorem C154_options (f : Flags) :
    ((stepOptions f).skipTests = true ↔ f.skipTests = true) ∧ ((stepOptions f).releaseMode = true ↔ f.release = true) ∧
    (∀ l, f.args = some l → (stepOptions f).buildArgs = l) ∧ (f.args = none → (stepOptions f).buildArgs = []) := by
  refine ⟨Iff.rfl, Iff.rfl, fun l h => ?_, fun h => ?_⟩ <;> simp [stepOptions, h]

/-- C152: a source with a subdirectory is built there: below the directory it was fetched to, or at the path itself if that is
absolute.  Without one it is built where it was fetched to. -/
theorem C152_directory (s : Source) (dir : Str) (hd : dir ≠ []) (he : dir.getLast? ≠ some '/') :
    (∀ d, s.subdirectory = some d → d.head? ≠ some '/' → fetchedDir s dir = dir ++ '/' :: d) ∧
    (∀ d, s.subdirectory = some ('/' :: d) → fetchedDir s dir = '/' :: d) ∧
    (s.subdirectory = none → fetchedDir s dir = dir) := by
  refine ⟨fun d h hh => ?_, fun d h => ?_, fun h => ?_⟩ <;> simp_all [fetchedDir, pjoin]

example : fetchedDir ⟨c!"https://github.com/u/r", .git, none, some c!"pkgs/a"⟩ c!"/tmp/r" = c!"/tmp/r/pkgs/a" := by decide

end Rez.Props
