import Verif.Spec.Help
import Verif.Props.PackageQuery
import Verif.Props.Rex
import Verif.Lemmas.RangeParse
/-!
# C232: help for packages
-/
namespace Rez.Props
open Rez Rez.Help Rez.Help.Spec Rez.Serial Rez.PackageOrder Rez.Repository Rez.Spec.Repository
open Rez.Spec (SortingOk Comparable InDirection Parsed)
open Rez.Spec.PackageQuery (Top)
open PackageQueryLemmas (Good offered managerFind_good top_of_head comparable_of)
namespace HelpLemmas

theorem byVersion_swap (x y : Pkg) : byVersion y x = (byVersion x y).swap := by
  unfold byVersion
  cases x.version <;> cases y.version <;> simp [Version.cmp_swap]

theorem byVersion_trans {ps : List Pkg} (h : Ordered ps) : ∀ x ∈ ps, ∀ y ∈ ps, ∀ z ∈ ps,
    byVersion x y ≠ .gt → byVersion y z ≠ .gt → byVersion x z ≠ .gt := by
  intro x hx y hy z hz
  unfold byVersion
  cases hxv : x.version <;> cases hyv : y.version <;> cases hzv : z.version <;> simp
  intro h1 h2
  exact h z hz y hy x hx _ _ _ hzv hyv hxv h2 h1

theorem notAbove_of {p q : Pkg} (h : byVersion p q ≠ .gt) : NotAbove q p := by
  unfold byVersion at h
  unfold NotAbove
  cases hp : p.version <;> cases hq : q.version <;> simp_all
  rw [← Version.cmp_swap] at h
  intro hl
  rw [hl] at h
  exact h rfl

theorem matching_iff (name : Str) (range : Option VersionRange) (p : Pkg) : matching name range p = true ↔
    p.name = name ∧ ∀ r, range = some r → ∃ v, p.version = some v ∧ r.contains v = true := by
  unfold matching
  by_cases hn : p.name = name
  · cases range with
    | none => simp [hn]
    | some r => cases hv : p.version <;> simp [hn, hv]
  · simp [hn]

theorem firstHelp_spec (name : Str) (range : Option VersionRange) : ∀ l : List Pkg,
    (∃ pre p post help, l = pre ++ p :: post ∧ Answers name range p help ∧ (∀ q ∈ pre, ∀ h, ¬ Answers name range q h) ∧
      firstHelp name range l = ⟨some p, [⟨c!"Help", help⟩]⟩) ∨
    ((∀ q ∈ l, ∀ h, ¬ Answers name range q h) ∧ firstHelp name range l = ⟨none, []⟩) := by
  intro l
  induction l with
  | nil => exact .inr ⟨(fun q hq => by cases hq), rfl⟩
  | cons p ps ih =>
    have step : (∀ h, ¬ Answers name range p h) → firstHelp name range (p :: ps) = firstHelp name range ps →
        (∃ pre x post help, p :: ps = pre ++ x :: post ∧ Answers name range x help ∧ (∀ q ∈ pre, ∀ h, ¬ Answers name range q h) ∧
          firstHelp name range (p :: ps) = ⟨some x, [⟨c!"Help", help⟩]⟩) ∨
        ((∀ q ∈ p :: ps, ∀ h, ¬ Answers name range q h) ∧ firstHelp name range (p :: ps) = ⟨none, []⟩) := by
      intro hn he
      rcases ih with ⟨pre, x, post, help, h1, h2, h3, h4⟩ | ⟨h1, h2⟩
      · refine .inl ⟨p :: pre, x, post, help, by rw [h1]; rfl, h2, ?_, he.trans h4⟩
        intro q hq
        rcases List.mem_cons.mp hq with rfl | hq
        · exact hn
        · exact h3 q hq
      · refine .inr ⟨?_, he.trans h2⟩
        intro q hq
        rcases List.mem_cons.mp hq with rfl | hq
        · exact hn
        · exact h1 q hq
    cases hm : matching name range p with
    | false =>
      refine step (fun h ha => ?_) (by simp [firstHelp, hm])
      rw [(matching_iff name range p).mpr ⟨ha.1, ha.2.1⟩] at hm
      cases hm
    | true =>
      cases hh : p.help with
      | none =>
        refine step (fun h ha => ?_) (by simp [firstHelp, hm, hh])
        rw [ha.2.2] at hh
        cases hh
      | some help =>
        obtain ⟨m1, m2⟩ := (matching_iff name range p).mp hm
        exact .inl ⟨[], p, ps, help, rfl, ⟨m1, m2, hh⟩, (fun q hq => by cases hq), by simp [firstHelp, hm, hh]⟩

end HelpLemmas
open HelpLemmas

/-- C232: the help found is that of a package of that name, in the range and with a help text, and no such package comes before it. -/
theorem C232_search {sort : (Pkg → Pkg → Ordering) → List Pkg → Outcome (List Pkg)} (hs : Sorts sort) (name : Str)
    (range : Option VersionRange) (ps : List Pkg) (ho : Ordered ps) :
    ∃ f, search sort name range ps = .ok f ∧
      ((∃ p ∈ ps, ∃ help, Answers name range p help ∧ f = ⟨some p, [⟨c!"Help", help⟩]⟩ ∧ f.success = true ∧
        ∀ q ∈ ps, ∀ h, Answers name range q h → NotAbove q p) ∨
      ((∀ q ∈ ps, ∀ h, ¬ Answers name range q h) ∧ f = ⟨none, []⟩ ∧ f.success = false)) := by
  obtain ⟨l, hl, hd⟩ := hs.sorted byVersion ps (fun x _ y _ => byVersion_swap x y) (byVersion_trans ho)
  have hp := hs.perm _ _ _ hl
  refine ⟨firstHelp name range l, by unfold search; rw [hl], ?_⟩
  rcases firstHelp_spec name range l with ⟨pre, p, post, help, h1, h2, h3, h4⟩ | ⟨h1, h2⟩
  · refine .inl ⟨p, hp.mem_iff.mp (by rw [h1]; simp), help, h2, h4, by rw [h4]; rfl, fun q hq h ha => ?_⟩
    have hq := hp.mem_iff.mpr hq
    rw [h1] at hq hd
    rcases List.mem_append.mp hq with hq | hq
    · exact absurd ha (h3 q hq h)
    · rcases List.mem_cons.mp hq with rfl | hq
      · exact ⟨id, fun u v hu hv => by
          rw [hu] at hv
          cases hv
          rw [Version.cmp_refl]
          decide⟩
      · exact notAbove_of ((List.pairwise_cons.mp (List.pairwise_append.mp hd).2.1).1 q hq)
  · exact .inr ⟨fun q hq => h1 q (hp.mem_iff.mpr hq), h2, by rw [h2]; rfl⟩

/-- C232: the same in Python, where the range is a text; a range that cannot be read is an error. -/
theorem C232_python {sort : (Pkg → Pkg → Ordering) → List Pkg → Outcome (List Pkg)} (name : Str) (ps : List Pkg) :
    python sort name none ps = search sort name none ps ∧
    (∀ t r, VersionRange.parse t = some r → python sort name (some t) ps = search sort name (some r) ps) ∧
    ∀ t, VersionRange.parse t = none → python sort name (some t) ps = .err := by
  refine ⟨rfl, fun t r h => ?_, fun t h => ?_⟩ <;> simp [python, h]

/-! ## Addresses -/
namespace HelpLemmas

theorem replace_pass {p : Char} {ps by_ w : Str} (h : p ∉ w) (rest : Str) :
    Rex.replaceAll (p :: ps) by_ (w ++ rest) = w ++ Rex.replaceAll (p :: ps) by_ rest := by
  unfold Rex.replaceAll
  induction w with
  | nil => rfl
  | cons c w ih =>
    have hc : (p :: ps).isPrefixOf (c :: (w ++ rest)) = false := by
      simp only [List.isPrefixOf, Bool.and_eq_false_iff, beq_eq_false_iff_ne]
      left
      rintro rfl
      exact h (by simp)
    rw [List.cons_append, Rex.replaceAux, if_neg (by rw [hc]; simp), ih fun hm => h (List.mem_cons_of_mem _ hm)]
    rfl

theorem replace_step {ps by_ : Str} {c : Char} {rest : Str} (h : ('$' :: ps).isPrefixOf ('$' :: c :: rest) = false) :
    Rex.replaceAll ('$' :: ps) by_ ('$' :: c :: rest) = '$' :: Rex.replaceAll ('$' :: ps) by_ (c :: rest) := by
  unfold Rex.replaceAll
  rw [Rex.replaceAux, if_neg (by rw [h]; simp)]

theorem replace_at (pat by_ s : Str) (hne : pat ≠ []) : Rex.replaceAll pat by_ (pat ++ s) = by_ ++ Rex.replaceAll pat by_ s :=
  RexLemmas.replace_hit pat by_ s hne

/-- The places of one kind filled in. -/
def fill (k : Piece → Bool) (v : Str) (x : Piece) : Piece := if k x then .text v else x

theorem fill_all (ps by_ : Str) (k : Piece → Bool)
    (hb : ∀ x, k x = true → x.written = '$' :: ps)
    (ho : ∀ x rest, k x = false → (∀ s, x ≠ .text s) →
      Rex.replaceAll ('$' :: ps) by_ (x.written ++ rest) = x.written ++ Rex.replaceAll ('$' :: ps) by_ rest) :
    ∀ l : List Piece, Tidy l → Rex.replaceAll ('$' :: ps) by_ (l.flatMap Piece.written) = (l.map (fill k by_)).flatMap Piece.written := by
  intro l
  induction l with
  | nil => intro _; rfl
  | cons x l ih =>
    intro ht
    have ih := ih fun s hs => ht s (List.mem_cons_of_mem _ hs)
    rw [List.flatMap_cons, List.map_cons, List.flatMap_cons, ← ih]
    by_cases hx : k x = true
    · rw [hb x hx, replace_at _ _ _ (by simp)]
      simp [fill, hx, Piece.written]
    · have hx : k x = false := by simpa using hx
      rw [show fill k by_ x = x by simp [fill, hx]]
      by_cases hxt : ∃ s, x = .text s
      · obtain ⟨s, rfl⟩ := hxt
        exact replace_pass (ht s (by simp)) _
      · exact ho x _ hx fun s h => hxt ⟨s, h⟩

theorem tidy_fill {l : List Piece} {k : Piece → Bool} {v : Str} (h : Tidy l) (hv : '$' ∉ v) : Tidy (l.map (fill k v)) := by
  intro s hs
  obtain ⟨x, hx, he⟩ := List.mem_map.mp hs
  unfold fill at he
  split at he
  · cases he
    exact hv
  · subst he
    exact h s hx

theorem fill_base (by_ : Str) (l : List Piece) (h : Tidy l) :
    Rex.replaceAll c!"$BASE" by_ (l.flatMap Piece.written) = (l.map (fill (fun x => x matches .base) by_)).flatMap Piece.written := by
  refine fill_all c!"BASE" by_ _ (fun x hx => ?_) (fun x rest hx hn => ?_) l h
  · cases x <;> first | rfl | cases hx
  · cases x with
    | text s => exact absurd rfl (hn s)
    | base => cases hx
    | root =>
      show Rex.replaceAll c!"$BASE" by_ ('$' :: 'R' :: (c!"OOT" ++ rest)) = _
      rw [replace_step rfl]
      exact congrArg ('$' :: ·) (replace_pass (w := c!"ROOT") (by decide) rest)
    | version =>
      show Rex.replaceAll c!"$BASE" by_ ('$' :: 'V' :: (c!"ERSION" ++ rest)) = _
      rw [replace_step rfl]
      exact congrArg ('$' :: ·) (replace_pass (w := c!"VERSION") (by decide) rest)

theorem fill_root (by_ : Str) (l : List Piece) (h : Tidy l) :
    Rex.replaceAll c!"$ROOT" by_ (l.flatMap Piece.written) = (l.map (fill (fun x => x matches .root) by_)).flatMap Piece.written := by
  refine fill_all c!"ROOT" by_ _ (fun x hx => ?_) (fun x rest hx hn => ?_) l h
  · cases x <;> first | rfl | cases hx
  · cases x with
    | text s => exact absurd rfl (hn s)
    | root => cases hx
    | base =>
      show Rex.replaceAll c!"$ROOT" by_ ('$' :: 'B' :: (c!"ASE" ++ rest)) = _
      rw [replace_step rfl]
      exact congrArg ('$' :: ·) (replace_pass (w := c!"BASE") (by decide) rest)
    | version =>
      show Rex.replaceAll c!"$ROOT" by_ ('$' :: 'V' :: (c!"ERSION" ++ rest)) = _
      rw [replace_step rfl]
      exact congrArg ('$' :: ·) (replace_pass (w := c!"VERSION") (by decide) rest)

theorem fill_version (by_ : Str) (l : List Piece) (h : Tidy l) :
    Rex.replaceAll c!"$VERSION" by_ (l.flatMap Piece.written) = (l.map (fill (fun x => x matches .version) by_)).flatMap Piece.written := by
  refine fill_all c!"VERSION" by_ _ (fun x hx => ?_) (fun x rest hx hn => ?_) l h
  · cases x <;> first | rfl | cases hx
  · cases x with
    | text s => exact absurd rfl (hn s)
    | version => cases hx
    | base =>
      show Rex.replaceAll c!"$VERSION" by_ ('$' :: 'B' :: (c!"ASE" ++ rest)) = _
      rw [replace_step rfl]
      exact congrArg ('$' :: ·) (replace_pass (w := c!"BASE") (by decide) rest)
    | root =>
      show Rex.replaceAll c!"$VERSION" by_ ('$' :: 'R' :: (c!"OOT" ++ rest)) = _
      rw [replace_step rfl]
      exact congrArg ('$' :: ·) (replace_pass (w := c!"ROOT") (by decide) rest)

theorem fill_three (b v : Str) (l : List Piece) :
    (((l.map (fill (fun x => x matches .base) b)).map (fill (fun x => x matches .root) b)).map (fill (fun x => x matches .version) v)).flatMap
      Piece.written = l.flatMap (Piece.meant b v) := by
  rw [List.map_map, List.map_map, List.flatMap_map]
  congr 1
  funext x
  cases x <;> rfl

theorem meant_plain {b v : Str} {l : List Piece} (hb : '$' ∉ b) (hv : '$' ∉ v) (h : Tidy l) : '$' ∉ l.flatMap (Piece.meant b v) := by
  intro hm
  obtain ⟨x, hx, hd⟩ := List.mem_flatMap.mp hm
  cases x with
  | text s => exact h s hx hd
  | base => exact hb hd
  | root => exact hb hd
  | version => exact hv hd

theorem not_browser {s : Str} (h : '$' ∉ s) : (c!"$BROWSER").isPrefixOf s = false := by
  cases s with
  | nil => rfl
  | cons c s =>
    simp only [List.isPrefixOf, Bool.and_eq_false_iff, beq_eq_false_iff_ne]
    left
    rintro rfl
    exact h (by simp)

end HelpLemmas

/-- C232: in an address the directory of the package, twice, and its version are filled in, wherever they are asked for; `$BROWSER` at
the beginning is taken away, with the spaces around the rest. -/
theorem C232_address (base version : Str) (l : List Piece) (ht : Tidy l) (hb : '$' ∉ base) (hv : '$' ∉ version) :
    formatUri base version (l.flatMap Piece.written) = l.flatMap (Piece.meant base version) ∧
    formatUri base version (c!"$BROWSER" ++ l.flatMap Piece.written) = trim (l.flatMap (Piece.meant base version)) := by
  have key : Rex.replaceAll c!"$VERSION" version (Rex.replaceAll c!"$ROOT" base (Rex.replaceAll c!"$BASE" base (l.flatMap Piece.written))) =
      l.flatMap (Piece.meant base version) := by
    rw [fill_base _ _ ht, fill_root _ _ (tidy_fill ht hb), fill_version _ _ (tidy_fill (tidy_fill ht hb) hb), fill_three]
  have hplain := meant_plain hb hv ht
  constructor
  · unfold formatUri
    simp only
    rw [key, not_browser hplain]
    rfl
  · have hbr : ∀ (ps by_ rest : Str), ('$' :: ps).isPrefixOf ('$' :: 'B' :: (c!"ROWSER" ++ rest)) = false →
        Rex.replaceAll ('$' :: ps) by_ (c!"$BROWSER" ++ rest) = c!"$BROWSER" ++ Rex.replaceAll ('$' :: ps) by_ rest := by
      intro ps by_ rest h
      show Rex.replaceAll ('$' :: ps) by_ ('$' :: 'B' :: (c!"ROWSER" ++ rest)) = _
      rw [replace_step h]
      exact congrArg ('$' :: ·) (replace_pass (w := c!"BROWSER") (by decide) rest)
    unfold formatUri
    simp only
    rw [hbr c!"BASE" _ _ rfl, hbr c!"ROOT" _ _ rfl, hbr c!"VERSION" _ _ rfl, key]
    have hpre : ∀ s : Str, (c!"$BROWSER").isPrefixOf (c!"$BROWSER" ++ s) = true := fun s =>
      List.isPrefixOf_iff_prefix.mpr (List.prefix_append _ _)
    rw [if_pos (hpre _)]
    congr 1
    generalize hm : l.flatMap (Piece.meant base version) = r at hplain
    show dropPrefixes c!"$BROWSER" (8 + r.length |> fun n => (c!"$BROWSER" ++ r).length) (c!"$BROWSER" ++ r) = r
    have hlen : (c!"$BROWSER" ++ r).length = (7 + r.length) + 1 := by simp; omega
    simp only [hlen]
    rw [dropPrefixes, if_pos (hpre _)]
    show dropPrefixes c!"$BROWSER" (7 + r.length) r = r
    cases hn : 7 + r.length with
    | zero => rfl
    | succ n => rw [dropPrefixes, if_neg (by rw [not_browser hplain]; simp)]

/-- C232: the addresses of the help that was found. -/
theorem C232_format (f : Found) (p : Pkg) (hf : f.package = some p) (hv : ∀ v, p.version = some v → Parsed v) (hb : ∀ b, p.base = some b → '$' ∉ b) :
    f.formatUris.package = some p ∧ f.formatUris.sections.map Section.name = f.sections.map Section.name ∧
    ∀ (i : Nat) (s : Section) (l : List Piece), f.sections[i]? = some s → Tidy l → s.uri = l.flatMap Piece.written →
      ∃ s', f.formatUris.sections[i]? = some s' ∧ s'.name = s.name ∧
        s'.uri = l.flatMap (Piece.meant (p.base.getD []) ((p.version.map Version.asStr).getD [])) := by
  unfold Found.formatUris
  rw [hf]
  refine ⟨rfl, by simp, fun i s l hi ht hu =>
    ⟨⟨s.name, formatUri (p.base.getD []) ((p.version.map Version.asStr).getD []) s.uri⟩, by simp [hi], rfl, ?_⟩⟩
  simp only
  rw [hu]
  refine (C232_address _ _ l ht ?_ ?_).1
  · cases hpb : p.base with
    | none => simp
    | some b => exact hb b hpb
  · cases hpv : p.version with
    | none => simp
    | some v => exact (Printed.of_parsed (hv v hpv)).not_mem (by decide) (by decide) (by decide) (by decide)

/-! ## The command -/
namespace HelpLemmas

theorem repos_good {m : Machine} {a : Args} (h : AllThere m a) :
    Good (repositories m a) ∧ offered ((repositories m a).map Prod.fst) = inPlaces m a := by
  have hp : (if a.paths.isEmpty then [c!"./local_packages"] else a.paths) = places a := by
    unfold places
    cases a.paths <;> rfl
  constructor
  · intro r hr
    unfold repositories at hr
    rw [hp] at hr
    obtain ⟨d, hd, rfl⟩ := List.mem_map.mp hr
    obtain ⟨root, h1, h2⟩ := h d hd
    simp only [h1, Option.getD_some]
    exact ⟨h2, .inl trivial⟩
  · funext name
    unfold repositories offered inPlaces
    rw [hp, List.map_map, List.flatMap_map]
    refine List.flatMap_congr ?_
    intro d hd
    obtain ⟨root, h1, -⟩ := h d hd
    simp [h1]

end HelpLemmas

/-- C232: the package whose help is shown: none comes before it. -/
theorem C232_package (m : Machine) (a : Args) (name : Str) (hs : SortingOk m.world.srt) (h : AllThere m a)
    (hc : Comparable (inPlaces m a name)) :
    (inPlaces m a name = [] ∧ findPackage m a name = .err) ∨
    ∃ p, Top p (inPlaces m a name) (fun _ => True) ∧ findPackage m a name = .ok (m.full p) := by
  obtain ⟨hg, ho⟩ := repos_good h
  rw [← ho] at hc ⊢
  obtain ⟨_, l, hl, hp, hd, _⟩ := managerFind_good hs hg name hc
  have ht := top_of_head hp hd (fun _ => True) (fun _ => true) (by simp)
  rw [List.filter_true] at ht
  unfold findPackage
  rw [hl]
  cases l with
  | nil => exact .inl ⟨List.Perm.nil_eq hp |>.symm, rfl⟩
  | cons p l =>
    refine .inr ⟨p, ht.1 p rfl, ?_⟩
    have : (sections (m.full p)).isEmpty = false := by
      unfold sections
      cases (m.full p).description <;> rfl
    simp [this]

namespace HelpLemmas

theorem information_eq (p : Pkg) : information p = (facts p).flatMap fun f => f.1 ++ c!": " ++ f.2 ++ c!"\n" := by
  unfold information facts line
  cases p.version <;> cases p.authors <;> cases p.requires <;> cases p.tools <;> simp

theorem sections_part (p : Pkg) (n : Nat) (title text : Str) :
    (sections p)[n - 1]? = some (title, text) ↔ Part p (max n 1) title text := by
  unfold sections
  rw [information_eq]
  constructor
  · intro h
    cases hd : p.description with
    | none =>
      rw [hd] at h
      match n, h with
      | 0, h => cases h; exact .information (by simp [hd])
      | 1, h => cases h; exact .information (by simp [hd])
      | 2, h => cases h; exact .usage (by simp [hd])
    | some d =>
      rw [hd] at h
      match n, h with
      | 0, h => cases h; exact .description hd
      | 1, h => cases h; exact .description hd
      | 2, h => cases h; exact .information (by simp [hd])
      | 3, h => cases h; exact .usage (by simp [hd])
  · intro h
    generalize hm : max n 1 = k at h
    have hn : n - 1 = k - 1 := by omega
    rw [hn]
    cases h with
    | description hd => rw [hd]; rfl
    | information hk =>
      cases hd : p.description <;> simp [hd] at hk <;> subst hk <;> rfl
    | usage hk =>
      cases hd : p.description <;> simp [hd] at hk <;> subst hk <;> rfl

theorem chatter_eq (a : Args) (name : Str) (p : Pkg) : chatter a name p = Spec.intro a name p := by
  unfold chatter Spec.intro line
  cases a.verbose <;> cases p.version <;> simp

theorem showSection_eq (p : Pkg) (n : Nat) (s : Str × Str) (h : (sections p)[n - 1]? = some s) :
    showSection p n = .ok (heading p n s.1 ++ s.2 ++ c!"\n\n") := by
  unfold showSection heading line
  rw [h]
  cases p.version <;> simp [List.append_assoc]

end HelpLemmas

/-- C232: the section asked for is shown, and one that is not there is an error. -/
theorem C232_section (m : Machine) (a : Args) (name : Str) (p : Pkg) (hp : a.package = some name) (hm : a.manual = false) (he : a.entries = false)
    (hf : findPackage m a name = .ok p) :
    (∀ title text, Part p (max a.chosen 1) title text →
      execute m a = .ok (Spec.intro a name p ++ heading p a.chosen title ++ text ++ c!"\n\n")) ∧
    ((∀ title text, ¬ Part p (max a.chosen 1) title text) → execute m a = .err) := by
  unfold execute
  simp only [hp, hm, he, hf, Bool.false_eq_true, if_false, chatter_eq]
  constructor
  · intro title text h
    rw [showSection_eq p _ _ ((sections_part p _ _ _).mpr h)]
    simp [List.append_assoc]
  · intro h
    unfold showSection
    cases hs : (sections p)[a.chosen - 1]? with
    | none => rfl
    | some s => exact absurd ((sections_part p _ s.1 s.2).mp hs) (h _ _)

/-- C232: with `--entries` the sections are listed with their numbers, and nothing of them is left out. -/
theorem C232_entries (m : Machine) (a : Args) (name : Str) (p : Pkg) (hp : a.package = some name) (hm : a.manual = false) (he : a.entries = true)
    (hf : findPackage m a name = .ok p) :
    execute m a = .ok (Spec.intro a name p ++ c!"Help found for:\n  " ++ p.name ++ c!"\n" ++
      (match p.version with | some v => c!"  Version: " ++ v.asStr ++ c!"\n" | none => []) ++ c!"\n" ++
      (match p.description with
        | some d => c!"Description:\n  " ++ d ++ c!"\n\nSections:\n  1: Description\n  2: Package Information\n  3: Usage\n"
        | none => c!"Sections:\n  1: Package Information\n  2: Usage\n") ++
      c!"\nUse 'rez help " ++ p.name ++ c!" <section_number>' to view a specific section.\n") := by
  have d1 : decimal 1 = c!"1" := by decide +kernel
  have d2 : decimal 2 = c!"2" := by decide +kernel
  have d3 : decimal 3 = c!"3" := by decide +kernel
  unfold execute
  simp only [hp, hm, he, hf, Bool.false_eq_true, if_false, if_true, chatter_eq]
  unfold showEntries line sections
  cases p.version <;> cases p.description <;> simp [numbered, line, d1, d2, d3]

/-- C232: a package that is not there, or a place at which there is no repository, is an error. -/
theorem C232_not_found (m : Machine) (a : Args) (name : Str) (hp : a.package = some name) (hm : a.manual = false)
    (hf : findPackage m a name = .err) : execute m a = .err := by
  unfold execute
  simp [hp, hm, hf]

/-- C232: the command as a whole: the section asked for of a package that none comes before. -/
theorem C232_command (m : Machine) (a : Args) (name : Str) (hs : SortingOk m.world.srt) (h : AllThere m a)
    (hc : Comparable (inPlaces m a name)) (hp : a.package = some name) (hm : a.manual = false) (he : a.entries = false) :
    (inPlaces m a name = [] ∧ execute m a = .err) ∨
    ∃ p, Top p (inPlaces m a name) (fun _ => True) ∧
      (∀ title text, Part (m.full p) (max a.chosen 1) title text →
        execute m a = .ok (Spec.intro a name (m.full p) ++ heading (m.full p) a.chosen title ++ text ++ c!"\n\n")) ∧
      ((∀ title text, ¬ Part (m.full p) (max a.chosen 1) title text) → execute m a = .err) := by
  rcases C232_package m a name hs h hc with ⟨h1, h2⟩ | ⟨p, h1, h2⟩
  · exact .inl ⟨h1, C232_not_found m a name hp hm h2⟩
  · exact .inr ⟨p, h1, C232_section m a name _ hp hm he h2⟩

namespace HelpLemmas

theorem find_none (name : Str) : (find none State.new name).2 = .err := rfl

theorem find_no_panic (root : Root) (st : State) (name : Str) : (find root st name).2 ≠ .panic := by
  unfold find
  split
  · simp
  · split
    · simp
    · split
      · simp
      · split <;> simp

theorem findEach_no_panic (name : Str) : ∀ repos : List Repo, (findEach repos name).2 ≠ .panic := by
  intro repos
  induction repos with
  | nil => simp [findEach]
  | cons r repos ih =>
    obtain ⟨root, st⟩ := r
    have hp := find_no_panic root st name
    unfold findEach
    split
    · split
      · simp
      · simp
      · rename_i h
        rw [h] at ih
        exact absurd rfl ih
    · simp
    · rename_i h
      rw [h] at hp
      exact absurd rfl hp

theorem findEach_err (name : Str) : ∀ repos : List Repo, (none, State.new) ∈ repos → (findEach repos name).2 = .err := by
  intro repos
  induction repos with
  | nil => intro h; cases h
  | cons r repos ih =>
    intro h
    obtain ⟨root, st⟩ := r
    have hp := find_no_panic root st name
    unfold findEach
    rcases List.mem_cons.mp h with h | h
    · cases h
      rfl
    · have ih := ih h
      split
      · split
        · rename_i h'
          rw [h'] at ih
          cases ih
        · rfl
        · rename_i h'
          rw [h'] at ih
          cases ih
      · rfl
      · rename_i h
        rw [h] at hp
        exact absurd rfl hp

end HelpLemmas

/-- C232: if there is nothing at one of the places, the command fails, whatever is at the others. -/
theorem C232_missing (m : Machine) (a : Args) (name d : Str) (hp : a.package = some name) (hm : a.manual = false)
    (hd : d ∈ places a) (hn : m.world.dir d = none) : execute m a = .err := by
  refine C232_not_found m a name hp hm ?_
  have hpl : (if a.paths.isEmpty then [c!"./local_packages"] else a.paths) = places a := by
    unfold places
    cases a.paths <;> rfl
  have hmem : ((none, State.new) : Repo) ∈ repositories m a := by
    unfold repositories
    rw [hpl]
    exact List.mem_map.mpr ⟨d, hd, by rw [hn]; rfl⟩
  have he := findEach_err name _ hmem
  unfold findPackage managerFind
  generalize findEach (repositories m a) name = r at he
  obtain ⟨r1, r2⟩ := r
  simp only at he
  subst he
  rfl

/-- C232: the manual, and the list of commands, come from the program alone. -/
theorem C232_manual (m m' : Machine) (a : Args) (h : a.manual = true ∨ a.package = none) (h1 : m.manualText = m'.manualText)
    (h2 : m.commandsText = m'.commandsText) : execute m a = execute m' a := by
  unfold execute
  cases hp : a.package with
  | none => simp [h1, h2]
  | some name =>
    rcases h with h | h
    · simp [h, h1]
    · rw [hp] at h
      cases h

/-- C232: the help text that a package has is never shown by the command. -/
theorem C232_help_false (m : Machine) (a : Args) (other : Package → Option Str) :
    execute { m with full := fun p => { m.full p with help := other p } } a = execute m a := by
  unfold execute findPackage repositories
  cases a.package with
  | none => rfl
  | some name =>
    simp only
    cases (managerFind m.world.srt _ name).2 with
    | err => rfl
    | panic => rfl
    | ok ps =>
      cases ps with
      | nil => rfl
      | cons p ps =>
        have e : ∀ q : Pkg, ∀ h, sections { q with help := h } = sections q := fun _ _ => rfl
        simp only [e]
        cases (sections (m.full p)).isEmpty <;> rfl

/-! ## Examples -/
namespace HelpLemmas

def place (c : Pkg → Pkg → Ordering) (x : Pkg) : List Pkg → List Pkg
  | [] => [x]
  | y :: l => if c x y = .gt then y :: place c x l else x :: y :: l

def sortPkgs (c : Pkg → Pkg → Ordering) (l : List Pkg) : Outcome (List Pkg) := .ok (l.foldr (place c) [])

theorem place_perm (c : Pkg → Pkg → Ordering) (x : Pkg) : ∀ l, (place c x l).Perm (x :: l) := by
  intro l
  induction l with
  | nil => exact .refl _
  | cons y l ih =>
    unfold place
    split
    · exact ((List.Perm.cons y ih).trans (List.Perm.swap x y l))
    · exact .refl _

theorem sort_perm (c : Pkg → Pkg → Ordering) : ∀ l : List Pkg, (l.foldr (place c) []).Perm l := by
  intro l
  induction l with
  | nil => exact .refl _
  | cons x l ih => exact (place_perm c x _).trans (ih.cons x)

theorem place_sorted {c : Pkg → Pkg → Ordering} {S : List Pkg} (h1 : ∀ x ∈ S, ∀ y ∈ S, c y x = (c x y).swap)
    (h2 : ∀ x ∈ S, ∀ y ∈ S, ∀ z ∈ S, c x y ≠ .gt → c y z ≠ .gt → c x z ≠ .gt) {x : Pkg} (hx : x ∈ S) : ∀ l, (∀ y ∈ l, y ∈ S) →
    (l.Pairwise fun x y => c x y ≠ .gt) → (place c x l).Pairwise fun x y => c x y ≠ .gt := by
  intro l
  induction l with
  | nil => intro _ _; simp [place]
  | cons y l ih =>
    intro hm hl
    have hl' := List.pairwise_cons.mp hl
    unfold place
    split
    · rename_i hg
      refine List.pairwise_cons.mpr ⟨fun z hz => ?_, ih (fun z hz => hm z (List.mem_cons_of_mem _ hz)) hl'.2⟩
      rcases List.mem_cons.mp ((place_perm c x l).mem_iff.mp hz) with rfl | hz
      · rw [h1 z hx y (hm y (by simp)), hg]
        decide
      · exact hl'.1 z hz
    · rename_i hg
      refine List.pairwise_cons.mpr ⟨fun z hz => ?_, hl⟩
      rcases List.mem_cons.mp hz with rfl | hz
      · exact hg
      · exact h2 x hx y (hm y (by simp)) z (hm z (List.mem_cons_of_mem _ hz)) hg (hl'.1 z hz)

theorem sortPkgs_sorts : Sorts sortPkgs := by
  refine ⟨fun c l r h => by cases h; exact sort_perm c l, fun c l h1 h2 => ⟨_, rfl, ?_⟩⟩
  suffices ∀ k : List Pkg, (∀ x ∈ k, x ∈ l) → (k.foldr (place c) []).Pairwise fun x y => c x y ≠ .gt from this l fun _ h => h
  intro k
  induction k with
  | nil => intro _; exact .nil
  | cons x k ih =>
    intro hk
    exact place_sorted h1 h2 (hk x (by simp)) _ (fun y hy => hk y (List.mem_cons_of_mem _ ((sort_perm c k).mem_iff.mp hy)))
      (ih fun y hy => hk y (List.mem_cons_of_mem _ hy))

def ver (t : Str) : Version := (Version.parse t).getD ⟨[], [], t⟩

/-- Three versions of a tool; the newest has no help. -/
def tools : List Pkg :=
  [{ name := c!"tool", version := some (ver c!"1.0"), help := some c!"one" },
   { name := c!"tool", version := some (ver c!"3.0") },
   { name := c!"tool", version := some (ver c!"2.0"), help := some c!"file://$BASE/v$VERSION", base := some c!"/p" }]

end HelpLemmas

example : Sorts sortPkgs ∧ (∀ name range, ∃ f, search sortPkgs name range [] = .ok f) := ⟨sortPkgs_sorts, fun _ _ => ⟨_, rfl⟩⟩

-- the newest package that has a help text
example : (match search sortPkgs c!"tool" none tools with | .ok f => f.sections.map Section.uri | _ => []) = [c!"file://$BASE/v$VERSION"] ∧
    (match search sortPkgs c!"tool" none tools with | .ok f => f.formatUris.sections.map Section.uri | _ => []) = [c!"file:///p/v2.0"] ∧
    (match python sortPkgs c!"tool" (some c!"<2.0") tools with | .ok f => f.sections.map Section.uri | _ => []) = [c!"one"] := by
  decide +kernel

example : Tidy [.text c!"file://", .base, .text c!"/v", .version] ∧
    [Piece.text c!"file://", .base, .text c!"/v", .version].flatMap Piece.written = c!"file://$BASE/v$VERSION" := by
  refine ⟨?_, rfl⟩
  intro s hs
  simp only [List.mem_cons, Piece.text.injEq, reduceCtorEq, List.not_mem_nil, or_false, false_or] at hs
  rcases hs with rfl | rfl <;> decide

/-- C232 is false of directories with a dollar sign: what is filled in is filled in again. -/
theorem C232_base_false : formatUri c!"/p/$VERSION" c!"2" c!"$BASE/doc" = c!"/p/2/doc" := by decide +kernel

/-- C232 is false of longer words: `$BASEMENT` is taken for `$BASE`. -/
theorem C232_word_false : formatUri c!"/p" c!"2" c!"$BASEMENT" = c!"/pMENT" := by decide +kernel

namespace HelpLemmas

/-- One repository with two versions of a tool. -/
def helpMachine : Machine where
  world := queryWorld [(c!"./local_packages", some [(c!"tool", .folder true [
    (c!"1", .package (.ok (pk c!"tool" (some c!"1.0") none))), (c!"2", .package (.ok (pk c!"tool" (some c!"2.0") none)))])])]
  full := fun p => { name := p.name, version := p.version, description := some c!"A tool.", tools := [c!"hammer"], help := some c!"see the web" }
  manualText := c!"manual"
  commandsText := fun _ => c!"commands"

end HelpLemmas

example : SortingOk helpMachine.world.srt ∧ AllThere helpMachine { package := some c!"tool" } ∧
    Comparable (inPlaces helpMachine { package := some c!"tool" } c!"tool") ∧
    (inPlaces helpMachine { package := some c!"tool" } c!"tool").length = 2 := by
  refine ⟨demoSorting_ok, ?_, comparable_of (by decide +kernel), by decide +kernel⟩
  intro d hd
  have : d = c!"./local_packages" := by simpa [places] using hd
  subst this
  exact ⟨_, rfl, _, rfl, by simp [CleanBelow, Clean]⟩

example : execute helpMachine { package := some c!"tool", chosen := 2 } = .ok
    (c!"Help for: tool\nVersion: 2.0\n\nSection 2: Package Information\n" ++ List.replicate 50 '=' ++
      c!"\n\nPackage: tool\nVersion: 2.0\nTools: hammer\n\n\n") := by decide +kernel

/-- C232 is false of the number 0: the first section is shown, under the number 0. -/
theorem C232_zero_false : execute helpMachine { package := some c!"tool", chosen := 0 } = .ok
    (c!"Help for: tool\nVersion: 2.0\n\nSection 0: Description\n" ++ List.replicate 50 '=' ++ c!"\n\nA tool.\n\n") := by decide +kernel

/-- C232 is false of the configured repositories: without paths only `./local_packages` is looked at. -/
theorem C232_configured_false :
    let m : Machine := { helpMachine with world := queryWorld [(c!"/site", some [(c!"tool", .package (.ok (pk c!"tool" (some c!"1.0") none)))])] }
    c!"/site" ∈ m.world.packagesPath ∧ execute m { package := some c!"tool" } = .err := by
  intro m
  exact ⟨by decide +kernel, by decide +kernel⟩

end Rez.Props
