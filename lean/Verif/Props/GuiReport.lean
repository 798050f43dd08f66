import Verif.Spec.GuiReport
import Verif.Props.Search
/-!
# C247: the status page
-/
namespace Rez.Props
open Rez Rez.GuiReport Rez.Spec.GuiReport

namespace GuiReportLemmas

/-- One character, escaped. -/
def esc (c : Char) : Str :=
  if c = '&' then c!"&amp;" else if c = '<' then c!"&lt;" else if c = '>' then c!"&gt;" else if c = '"' then c!"&quot;"
  else if c = '\'' then c!"&#39;" else [c]

theorem escape_eq (s : Str) : escape s = s.flatMap esc := by
  unfold escape RexShell.replaceChar
  simp only [List.flatMap_assoc]
  congr 1
  funext c
  unfold esc
  by_cases h1 : c = '&'
  · subst h1; decide
  by_cases h2 : c = '<'
  · subst h2; decide
  by_cases h3 : c = '>'
  · subst h3; decide
  by_cases h4 : c = '"'
  · subst h4; decide
  by_cases h5 : c = '\''
  · subst h5; decide
  simp [h1, h2, h3, h4, h5]

theorem browser_plain {c : Char} (h : c ≠ '&') (r : Str) : browser (c :: r) = c :: browser r := by
  rw [browser]
  all_goals (intros; simp_all)

theorem browser_esc (c : Char) (r : Str) : browser (esc c ++ r) = c :: browser r := by
  unfold esc
  split_ifs with h1 h2 h3 h4 h5
  · subst h1; rfl
  · subst h2; rfl
  · subst h3; rfl
  · subst h4; rfl
  · subst h5; rfl
  · exact browser_plain h1 r

theorem before_sorted (l : List PkgInfo) : (l.insertionSort before).Pairwise before := by
  have : Std.Total before := ⟨fun a b => by
    unfold before
    have h1 := cmpStr_swap a.name b.name
    have h2 := cmpStr_swap a.version b.version
    rw [← h1, ← h2]
    cases cmpStr a.name b.name <;> cases cmpStr a.version b.version <;> simp [Ordering.then, Ordering.swap]⟩
  have : IsTrans PkgInfo before := ⟨fun a b c h1 h2 => by
    have tn := Std.TransCmp.isLE_trans (cmp := cmpStr) (a := a.name) (b := b.name) (c := c.name)
    have tv := Std.TransCmp.isLE_trans (cmp := cmpStr) (a := a.version) (b := b.version) (c := c.version)
    unfold before at *
    have key : ∀ {x y : PkgInfo}, (cmpStr x.name y.name).then (cmpStr x.version y.version) ≠ .gt ↔
        cmpStr x.name y.name = .lt ∨ (x.name = y.name ∧ cmpStr x.version y.version ≠ .gt) := by
      intro x y
      rw [← cmpStr_eq_iff x.name]
      cases cmpStr x.name y.name <;> simp [Ordering.then]
    rw [key] at *
    simp only [Ordering.isLE_iff_ne_gt] at tn tv
    rcases h1 with h1 | ⟨h1, h1'⟩ <;> rcases h2 with h2 | ⟨h2, h2'⟩
    · left
      have hle := tn (by rw [h1]; simp) (by rw [h2]; simp)
      cases h : cmpStr a.name c.name with
      | lt => rfl
      | gt => exact absurd h hle
      | eq =>
        rw [cmpStr_eq_iff] at h
        have := cmpStr_swap a.name b.name
        rw [h1, h, h2] at this
        cases this
    · left; rw [← h2]; exact h1
    · left; rw [h1]; exact h2
    · exact .inr ⟨h1.trans h2, tv h1' h2'⟩⟩
  exact List.pairwise_insertionSort _ l

/-- How many tags open or close. -/
theorem count_escape (s : Str) : (escape s).count '<' = 0 := by
  rw [escape_eq, List.count_eq_zero, List.mem_flatMap]
  rintro ⟨c, _, hc⟩
  revert hc
  unfold esc
  split_ifs with h1 h2 h3 h4 h5
  · decide
  · decide
  · decide
  · decide
  · decide
  · intro hc; exact h2 (List.mem_singleton.mp hc).symm

end GuiReportLemmas
open GuiReportLemmas

/-- **C247.** A browser reads every escaped text as the text itself. -/
theorem C247_reads (s : Str) : browser (escape s) = s := by
  rw [escape_eq]
  induction s with
  | nil => rfl
  | cons c s ih => rw [List.flatMap_cons, browser_esc, ih]

/-- **C247.** No escaped text holds a character that could begin or end a tag or an attribute. -/
theorem C247_safe (s : Str) (c : Char) (hc : c ∈ escape s) : c ≠ '<' ∧ c ≠ '>' ∧ c ≠ '"' ∧ c ≠ '\'' := by
  rw [escape_eq, List.mem_flatMap] at hc
  obtain ⟨d, _, hd⟩ := hc
  unfold esc at hd
  split_ifs at hd with h1 h2 h3 h4 h5
  case neg => rw [List.mem_singleton] at hd; subst hd; exact ⟨h2, h3, h4, h5⟩
  all_goals
    revert hd
    simp only [List.mem_cons, List.not_mem_nil, or_false]
    rintro (h | h | h | h | h | h) <;> (try subst h) <;> (try decide)

/-- **C247.** The page has the same tags whatever the names, versions, descriptions and paths are: their number depends on how many
packages and paths there are only. -/
theorem C247_tags (head timestamp : Str) (paths paths' : List Str) (ps ps' : List PkgInfo) (h1 : paths.length = paths'.length)
    (h2 : ps.length = ps'.length) :
    (page head timestamp paths ps).count '<' = (page head timestamp paths' ps').count '<' := by
  have hp : ∀ l : List Str, (l.flatMap pathItem).count '<' = 4 * l.length := by
    intro l
    induction l with
    | nil => rfl
    | cons p l ih =>
      rw [List.flatMap_cons, List.count_append, ih]
      unfold pathItem
      simp only [List.count_append, count_escape, List.length_cons]
      have a1 : (c!"<li><code>").count '<' = 2 := by decide
      have a2 : (c!"</code></li>").count '<' = 2 := by decide
      omega
  have hr : ∀ l : List PkgInfo, (l.flatMap row).count '<' = 10 * l.length := by
    intro l
    induction l with
    | nil => rfl
    | cons p l ih =>
      rw [List.flatMap_cons, List.count_append, ih]
      unfold row
      simp only [List.count_append, count_escape, List.length_cons]
      have a1 : (c!"<tr>\n  <td class=\"name\">").count '<' = 2 := by decide
      have a2 : (c!"</td>\n  <td class=\"version\">").count '<' = 2 := by decide
      have a3 : (c!"</td>\n  <td class=\"repo\">").count '<' = 2 := by decide
      have a4 : (c!"</td>\n  <td class=\"desc\">").count '<' = 2 := by decide
      have a5 : (c!"</td>\n</tr>").count '<' = 2 := by decide
      omega
  have ht : (table ps).count '<' = (table ps').count '<' := by
    unfold table
    have he : ps.isEmpty = ps'.isEmpty := by
      cases ps <;> cases ps' <;> simp_all
    rw [he]
    split
    · rfl
    · simp only [List.count_append, hr, h2]
  unfold page
  simp only [List.count_append, hp, ht, h1, h2]

/-- **C247.** The page shows the package directories of all paths of the settings and of the local path, only those of the family that
was asked for if one was; each with the description its `package.py` gives. -/
theorem C247_packages (disk : Str → Option (List FamilyEntry)) (paths : List Str) (package : Option Str) (i : PkgInfo) :
    i ∈ packages disk paths package ↔ i.repo ∈ paths ∧ (∀ f, package = some f → i.name = f) ∧
      ∃ content, HasPackage disk i.repo i.name i.version content ∧ i.description = readDescription content := by
  unfold packages
  rw [(List.perm_insertionSort _ _).mem_iff, List.mem_flatMap]
  unfold ofRepo ofFamily HasPackage
  constructor
  · rintro ⟨r, hr, hi⟩
    rw [List.mem_flatMap] at hi
    obtain ⟨⟨name, o⟩, hf, hi⟩ := hi
    split at hi
    · simp at hi
    · rename_i hany
      cases o with
      | none => simp at hi
      | some vs =>
        simp only [List.mem_filterMap, Option.map_eq_some_iff] at hi
        obtain ⟨⟨v, oc⟩, hv, content, hoc, rfl⟩ := hi
        simp only at hoc
        subst hoc
        refine ⟨hr, ?_, content, ?_, rfl⟩
        · intro f hpf
          subst hpf
          simpa using hany
        · cases hd : disk r with
          | none => rw [hd] at hf; simp at hf
          | some fs => rw [hd] at hf; exact ⟨fs, vs, rfl, hf, hv⟩
  · obtain ⟨repo, name, version, description⟩ := i
    rintro ⟨hr, hp, content, ⟨fs, vs, hd, hf, hv⟩, rfl⟩
    refine ⟨_, hr, List.mem_flatMap.mpr ⟨_, (by rw [hd]; exact hf), ?_⟩⟩
    have : package.any (fun x => name != x) = false := by
      cases package with
      | none => rfl
      | some f => have := hp f rfl; simp only at this; simp [this]
    simp only [this]
    exact List.mem_filterMap.mpr ⟨_, hv, rfl⟩

/-- **C247.** The packages are in the order of their names, those of one name in the order of the texts of their versions. -/
theorem C247_sorted (disk : Str → Option (List FamilyEntry)) (paths : List Str) (package : Option Str) :
    (packages disk paths package).Pairwise fun a b =>
      cmpStr a.name b.name = .lt ∨ (a.name = b.name ∧ cmpStr a.version b.version ≠ .gt) := by
  refine (before_sorted _).imp ?_
  intro a b h
  unfold before at h
  rw [← cmpStr_eq_iff a.name]
  revert h
  cases cmpStr a.name b.name <;> simp [Ordering.then]

set_option maxRecDepth 20000 in
/-- **C247.** The file that is written has the number of packages, an entry for every path, and a row for every package, in order; or
says that there are none. -/
theorem C247_written (head timestamp : Str) (disk : Str → Option (List FamilyEntry)) (configured : List Str) (localPath : Str) (a : Args) :
    let paths := configured ++ [localPath]
    let ps := packages disk paths a.package
    (execute head timestamp disk configured localPath a).1 = a.output.getD c!"rez-status.html" ∧
    ∃ m1 m2 m3, (execute head timestamp disk configured localPath a).2 = head ++ decimal ps.length ++ c!"</div>" ++ m1 ++
      paths.flatMap (fun p => c!"<li><code>" ++ escape p ++ c!"</code></li>") ++ m2 ++
      (if ps = [] then c!"No packages found in repositories."
       else ps.flatMap fun p => c!"<tr>\n" ++
        ([c!"name", c!"version", c!"repo", c!"desc"].zip (rowTexts p)).flatMap (fun x =>
          c!"  <td class=\"" ++ x.1 ++ c!"\">" ++ escape x.2 ++ c!"</td>\n") ++ c!"</tr>") ++ m3 := by
  intro paths ps
  refine ⟨rfl, ?_⟩
  have hrow : row = fun p => c!"<tr>\n" ++ ([c!"name", c!"version", c!"repo", c!"desc"].zip (rowTexts p)).flatMap (fun x =>
          c!"  <td class=\"" ++ x.1 ++ c!"\">" ++ escape x.2 ++ c!"</td>\n") ++ c!"</tr>" := by
    funext p
    unfold row rowTexts
    simp
  show ∃ m1 m2 m3, page head timestamp paths ps = _
  unfold page
  by_cases he : ps = []
  · rw [if_pos he, he]
    refine ⟨c!"\n        <div class=\"label\">Total Packages</div>\n      </div>\n    </div>\n    <div class=\"section\">\n      <h2>Package Repositories</h2>\n      <ul class=\"repos\">\n        ",
      c!"\n      </ul>\n    </div>\n    <div class=\"section\">\n      <h2>Packages</h2>\n      <div class=\"empty\">",
      c!"</div>\n    </div>\n    <div class=\"timestamp\">Generated: " ++ timestamp ++ c!"</div>\n  </div>\n</body>\n</html>", ?_⟩
    simp only [table, List.append_assoc]
    rfl
  · rw [if_neg he, ← hrow]
    refine ⟨c!"\n        <div class=\"label\">Total Packages</div>\n      </div>\n    </div>\n    <div class=\"section\">\n      <h2>Package Repositories</h2>\n      <ul class=\"repos\">\n        ",
      c!"\n      </ul>\n    </div>\n    <div class=\"section\">\n      <h2>Packages</h2>\n      <table>\n  <thead>\n    <tr><th>Package</th><th>Version</th><th>Repository</th><th>Description</th></tr>\n  </thead>\n  <tbody>\n    ",
      c!"\n  </tbody>\n</table>\n    </div>\n    <div class=\"timestamp\">Generated: " ++ timestamp ++ c!"</div>\n  </div>\n</body>\n</html>", ?_⟩
    have hne : ps.isEmpty = false := by cases hps : ps with
      | nil => exact absurd hps he
      | cons => rfl
    simp only [table, hne, Bool.false_eq_true, if_false, List.append_assoc]
    rfl

/-- **C247.** A description in double quotes is read as it is, from the first line that gives one, if it has no equals sign and neither
begins nor ends with a quote. -/
theorem C247_description (text t : Str) (pre post : List Str) (he : '=' ∉ t)
    (h1 : ∀ c, t.head? = some c → c ≠ '"' ∧ c ≠ '\'') (h2 : ∀ c, t.getLast? = some c → c ≠ '"' ∧ c ≠ '\'') (hne : t ≠ [])
    (hl : Serial.linesOf text = pre ++ (c!"description = \"" ++ t ++ c!"\"") :: post) (hpre : ∀ l ∈ pre, ¬ c!"description" <+: trim l) :
    readDescription (some text) = t := by
  have hnone : pre.findSome? lineDescription = none := by
    rw [List.findSome?_eq_none_iff]
    intro l hlm
    unfold lineDescription
    have : (c!"description").isPrefixOf (trim l) = false := by
      rw [Bool.eq_false_iff]
      intro h
      exact hpre l hlm (List.isPrefixOf_iff_prefix.mp h)
    simp only [this, Bool.false_and]
    rfl
  have hline : lineDescription (c!"description = \"" ++ t ++ c!"\"") = some t := by
    have ht : trim (c!"description = \"" ++ t ++ c!"\"") = c!"description " ++ '=' :: (c!" \"" ++ t ++ c!"\"") := by
      rw [trim_of_trimmed]
      · rfl
      · constructor
        · intro c hc; simp at hc; subst hc; decide
        · intro c hc; rw [List.getLast?_concat] at hc; injection hc with hc; subst hc; decide
    have hv : trim (c!" \"" ++ t ++ c!"\"") = c!"\"" ++ t ++ c!"\"" := by
      have : trim (c!" \"" ++ t ++ c!"\"") = trim (c!"\"" ++ t ++ c!"\"") := by
        unfold trim trimStart
        congr 1
      rw [this, trim_of_trimmed]
      constructor
      · intro c hc; simp at hc; subst hc; decide
      · intro c hc; rw [List.getLast?_concat] at hc; injection hc with hc; subst hc; decide
    have keep : ∀ (q : Char), (∀ c, t.head? = some c → c ≠ q) → (∀ c, t.getLast? = some c → c ≠ q) →
        Bind.strip (· == q) t = t := by
      intro q a b
      unfold Bind.strip
      have e1 : t.dropWhile (· == q) = t := dropWhile_eq_self_of_head (fun c hc => by simpa using a c hc)
      have e2 : t.reverse.dropWhile (· == q) = t.reverse :=
        dropWhile_eq_self_of_head (fun c hc => by rw [List.head?_reverse] at hc; simpa using b c hc)
      rw [e1, e2, List.reverse_reverse]
    have hq : Bind.strip (· == '"') (c!"\"" ++ t ++ c!"\"") = t := by
      have hk := keep '"' (fun c hc => (h1 c hc).1) (fun c hc => (h2 c hc).1)
      unfold Bind.strip at hk ⊢
      have e1 : (c!"\"" ++ t ++ c!"\"").dropWhile (· == '"') = t ++ c!"\"" := by
        obtain ⟨c, t', rfl⟩ := List.exists_cons_of_ne_nil hne
        have := (h1 c rfl).1
        simp [this]
      have e2 : t.dropWhile (· == '"') = t := by
        obtain ⟨c, t', rfl⟩ := List.exists_cons_of_ne_nil hne
        have := (h1 c rfl).1
        simp [this]
      rw [e2] at hk
      rw [e1, List.reverse_append]
      exact hk
    unfold lineDescription
    rw [ht]
    have hp : (c!"description").isPrefixOf (c!"description " ++ '=' :: (c!" \"" ++ t ++ c!"\"")) = true := by
      rw [List.isPrefixOf_iff_prefix]
      exact ⟨c!" " ++ '=' :: (c!" \"" ++ t ++ c!"\""), rfl⟩
    have hc : (c!"description " ++ '=' :: (c!" \"" ++ t ++ c!"\"")).contains '=' = true := by simp
    simp only [hp, hc, Bool.and_self, if_true]
    rw [splitChar_append (by decide), splitChar_noSep (by simp [he])]
    simp only [List.getElem?_cons_succ, List.getElem?_cons_zero]
    rw [hv, hq, keep '\'' (fun c hc => (h1 c hc).2) (fun c hc => (h2 c hc).2)]
    cases t with
    | nil => exact absurd rfl hne
    | cons c t => rfl
  unfold readDescription
  simp only
  rw [hl, List.findSome?_append, hnone, List.findSome?_cons, hline]
  rfl

/-- **C247**, that versions are in their own order: false, they are compared as texts. -/
theorem C247_order_false : (packages (fun _ => some [(c!"a", some [(c!"10.0", some none), (c!"9.0", some none)])]) [c!"/r"] none).map
    PkgInfo.version = [c!"10.0", c!"9.0"] ∧
    ((Version.parse c!"10.0").bind fun u => (Version.parse c!"9.0").map fun v => u.cmp v) = some .gt := by
  constructor <;> decide +kernel

/-- **C247**, that every package is shown once: false if the local path is also one of the settings. -/
theorem C247_once_false : (packages (fun _ => some [(c!"a", some [(c!"1", some none)])]) (allPaths [c!"/r"] c!"/r") none).length = 2 := by
  decide +kernel

/-- **C247**, that the whole description is shown: false if it has an equals sign. -/
theorem C247_description_false : readDescription (some c!"description = \"a=b\"\n") = c!"a" := by decide +kernel

example : readDescription (some c!"name = 'x'\ndescription = \"Tools & <more>\"\n") = c!"Tools & <more>" ∧
    escape c!"Tools & <more>" = c!"Tools &amp; &lt;more&gt;" := by decide +kernel

example : packages (fun p => if p = c!"/r" then some [(c!"b", some [(c!"2", some none), (c!"1", some none), (c!"f", none)]), (c!"a", some [(c!"3", some none)]), (c!"x", none)]
    else none) [c!"/r", c!"/gone"] none = [⟨c!"/r", c!"a", c!"3", []⟩, ⟨c!"/r", c!"b", c!"1", []⟩, ⟨c!"/r", c!"b", c!"2", []⟩] := by decide +kernel

end Rez.Props
