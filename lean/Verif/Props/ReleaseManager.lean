import Verif.Spec.ReleaseManager
import Verif.Props.PackageFiles
/-!
# Properties of the release manager (C158, C159)
-/
namespace Rez.Props
open Rez Rez.Files Rez.ReleaseManager Rez.ReleaseManager.Spec

namespace ManagerLemmas

variable {W : Type}

theorem ask_log (m : Machine W) (a : Act) (s : St W) : (ask m a s).1.log = s.log ++ [(a, (ask m a s).2)] := rfl

/-- A phase: what it adds to the log, and to the errors. -/
def Phase (s s' : St W) (r r' : Result) (b : Log) : Prop :=
  s'.log = s.log ++ b ∧ ∃ es, r'.errors = r.errors ++ es ∧ (es = [] ↔ Worked b)

theorem worked_append {a b : Log} : Worked (a ++ b) ↔ Worked a ∧ Worked b := by
  unfold Worked
  constructor
  · exact fun h => ⟨fun x hx => h x (List.mem_append_left _ hx), fun x hx => h x (List.mem_append_right _ hx)⟩
  · rintro ⟨h1, h2⟩ x hx
    rcases List.mem_append.1 hx with hx | hx
    · exact h1 x hx
    · exact h2 x hx

theorem worked_nil : Worked [] := by simp [Worked]

theorem worked_one {a : Act} {x : Answer} : Worked [(a, x)] ↔ (needed a = true → x.ok = true) := by simp [Worked]

theorem phase_refl (s : St W) (r : Result) : Phase s s r r [] := ⟨by simp, [], by simp, by simp [worked_nil]⟩

theorem phase_trans {s s' s'' : St W} {r r' r'' : Result} {a b : Log} (h1 : Phase s s' r r' a) (h2 : Phase s' s'' r' r'' b) :
    Phase s s'' r r'' (a ++ b) := by
  obtain ⟨l1, e1, he1, hi1⟩ := h1
  obtain ⟨l2, e2, he2, hi2⟩ := h2
  refine ⟨by rw [l2, l1, List.append_assoc], e1 ++ e2, by rw [he2, he1, List.append_assoc], ?_⟩
  rw [List.append_eq_nil_iff, hi1, hi2, worked_append]

/-- One act that is needed, with an error if it fails. -/
theorem phase_needed (m : Machine W) {a : Act} (ha : needed a = true) (s : St W) {r r' : Result} {e : Problem}
    (h1 : (ask m a s).2.ok = true → r'.errors = r.errors) (h2 : (ask m a s).2.ok = false → r'.errors = r.errors ++ [e]) :
    Phase s (ask m a s).1 r r' [(a, (ask m a s).2)] := by
  refine ⟨ask_log m a s, ?_⟩
  cases h : (ask m a s).2.ok with
  | true => exact ⟨[], by rw [h1 h, List.append_nil], by simp [worked_one, h]⟩
  | false => exact ⟨[e], h2 h, by simp [worked_one, h, ha]⟩

/-- One act that is not needed. -/
theorem phase_free (m : Machine W) {a : Act} (ha : needed a = false) (s : St W) {r r' : Result} (h : r'.errors = r.errors) :
    Phase s (ask m a s).1 r r' [(a, (ask m a s).2)] :=
  ⟨ask_log m a s, [], by rw [h, List.append_nil], by simp [worked_one, ha]⟩

theorem look_phase (m : Machine W) (src : Source) (s : St W) (r : Result) : ∃ b,
    Phase s (validateVcs m src s r).1 r (validateVcs m src s r).2.1 b ∧ Looking src (validateVcs m src s r).2.2 b := by
  unfold validateVcs
  cases hv : src.vcs with
  | false => exact ⟨[], phase_refl s r, Looking.none hv⟩
  | true =>
    rw [if_pos rfl]
    dsimp only
    cases hx : (ask m .validate s).2.ok with
    | false =>
      rw [if_pos (show (!false) = true from rfl)]
      refine ⟨_, phase_needed m rfl s (e := .vcs) ?_ (fun _ => rfl), Looking.bad _ hv hx⟩
      intro h
      rw [hx] at h; cases h
    | true =>
      rw [if_neg (by simp)]
      refine ⟨_, phase_trans (phase_needed m rfl s (r' := r) (e := .vcs) (fun _ => rfl) ?_) (phase_free m rfl _ rfl), Looking.good _ _ hv hx⟩
      intro h
      rw [hx] at h; cases h

theorem variants_phase (m : Machine W) (t : Texts) (src : Source) (path : Path) (l : List (List Str)) : ∀ (s : St W) (r : Result), ∃ b,
    Phase s (buildVariants m t src path l s r).1 r (buildVariants m t src path l s r).2 b ∧ Variants t src path l b := by
  induction l with
  | nil => intro s r; exact ⟨[], phase_refl s r, Variants.nil⟩
  | cons v l ih =>
    intro s r
    unfold buildVariants
    dsimp only
    have key : ∃ b, Phase s (buildVariant m t src path v s r).1 r (buildVariant m t src path v s r).2 b ∧
        ∀ log, Variants t src path l log → Variants t src path (v :: l) (b ++ log) := by
      unfold buildVariant
      dsimp only
      cases hx : (ask m (.mkdirs (path ++ [(t.digest v).take 8])) s).2.ok with
      | false =>
        rw [if_pos (show (!false) = true from rfl)]
        refine ⟨_, phase_needed m rfl s (e := .variantDir v) ?_ (fun _ => rfl), fun log h => Variants.failed v l _ log hx h⟩
        intro h
        rw [hx] at h; cases h
      | true =>
        rw [if_neg (by simp)]
        have h1 : Phase s (ask m (.mkdirs (path ++ [(t.digest v).take 8])) s).1 r r
            [(.mkdirs (path ++ [(t.digest v).take 8]), (ask m (.mkdirs (path ++ [(t.digest v).take 8])) s).2)] := by
          refine phase_needed m rfl s (e := .variantDir v) (fun _ => rfl) ?_
          intro h
          rw [hx] at h; cases h
        cases hp : src.py with
        | true =>
          rw [if_pos rfl]
          refine ⟨_, phase_trans h1 (phase_trans (phase_free m (a := .copy (src.dir ++ [c!"package.py"])
            (path ++ [(t.digest v).take 8] ++ [c!"package.py"])) rfl _ (r' := r) rfl) (phase_free m
            (a := .write (path ++ [(t.digest v).take 8] ++ [c!"variant.json"]) (t.variantJson v ((t.digest v).take 8))) rfl _ rfl)), ?_⟩
          intro log h
          have := Variants.filled v l _ ((ask m (.copy (src.dir ++ [c!"package.py"])
            (path ++ [(t.digest v).take 8] ++ [c!"package.py"])) (ask m (.mkdirs (path ++ [(t.digest v).take 8])) s).1).2)
            ((ask m (.write (path ++ [(t.digest v).take 8] ++ [c!"variant.json"]) (t.variantJson v ((t.digest v).take 8)))
              (ask m (.copy (src.dir ++ [c!"package.py"]) (path ++ [(t.digest v).take 8] ++ [c!"package.py"]))
                (ask m (.mkdirs (path ++ [(t.digest v).take 8])) s).1).1).2) log hx h
          rw [hp, if_pos rfl] at this
          simpa using this
        | false =>
          rw [if_neg (by simp)]
          refine ⟨_, phase_trans h1 (phase_free m
            (a := .write (path ++ [(t.digest v).take 8] ++ [c!"variant.json"]) (t.variantJson v ((t.digest v).take 8))) rfl _ rfl), ?_⟩
          intro log h
          have := Variants.filled v l _ ⟨true, false, [], []⟩
            ((ask m (.write (path ++ [(t.digest v).take 8] ++ [c!"variant.json"]) (t.variantJson v ((t.digest v).take 8)))
                (ask m (.mkdirs (path ++ [(t.digest v).take 8])) s).1).2) log hx h
          rw [hp, if_neg (by simp)] at this
          simpa using this
    obtain ⟨b1, hb1, hv1⟩ := key
    obtain ⟨b2, hb2, hv2⟩ := ih (buildVariant m t src path v s r).1 (buildVariant m t src path v s r).2
    exact ⟨b1 ++ b2, phase_trans hb1 hb2, hv1 b2 hv2⟩

/-- Building: it goes on with a phase, or it is over. -/
theorem build_phase (m : Machine W) (t : Texts) (src : Source) (p : Pkg) (path : Path) (s : St W) (r : Result) : ∃ b,
    Building t src p path b ∧
    ((∃ r', (buildPackage m t src p path s r).2 = some r' ∧ Phase s (buildPackage m t src p path s r).1 r r' b) ∨
     ((buildPackage m t src p path s r).2 = none ∧ (buildPackage m t src p path s r).1.log = s.log ++ b ∧
       ∃ x, b = [(.mkdirs path, x)] ∧ x.ok = false)) := by
  unfold buildPackage
  dsimp only
  cases hx : (ask m (.mkdirs path) s).2.ok with
  | false =>
    rw [if_pos (show (!false) = true from rfl)]
    exact ⟨[(.mkdirs path, (ask m (.mkdirs path) s).2)], Building.failed _ hx, Or.inr ⟨rfl, rfl, _, rfl, hx⟩⟩
  | true =>
    rw [if_neg (by simp)]
    have h1 : Phase s (ask m (.mkdirs path) s).1 r r [(.mkdirs path, (ask m (.mkdirs path) s).2)] := by
      refine phase_needed m rfl s (e := .vcs) (fun _ => rfl) ?_
      intro h
      rw [hx] at h; cases h
    by_cases hv : p.variants = []
    · rw [if_neg (by simp [hv])]
      cases hp : src.py with
      | true =>
        rw [if_pos rfl]
        exact ⟨_, Building.plain _ _ hx hv hp, Or.inl ⟨r, rfl, phase_trans h1 (phase_free m rfl _ rfl)⟩⟩
      | false =>
        rw [if_neg (by simp)]
        exact ⟨_, Building.empty _ hx hv hp, Or.inl ⟨r, rfl, h1⟩⟩
    · rw [if_pos (by simpa using hv)]
      obtain ⟨b, hb, hvs⟩ := variants_phase m t src path p.variants (ask m (.mkdirs path) s).1 r
      exact ⟨_, Building.variants _ b hx hv hvs, Or.inl ⟨_, rfl, phase_trans h1 hb⟩⟩

theorem each_phase (m : Machine W) (path : Path) (l : List Str) : ∀ (i : Nat) (s : St W) (r : Result), ∃ b,
    Phase s (runEach m path i l s r).1 r (runEach m path i l s r).2 b ∧ b.map (·.1) = l.map fun c => Act.test c path := by
  induction l with
  | nil => intro i s r; exact ⟨[], phase_refl s r, rfl⟩
  | cons c l ih =>
    intro i s r
    unfold runEach
    dsimp only
    obtain ⟨b, hb, hm⟩ := ih (i + 1) (ask m (.test c path) s).1
      (if (ask m (.test c path) s).2.ok = true then r else { r with errors := r.errors ++ [.test i] })
    refine ⟨(.test c path, (ask m (.test c path) s).2) :: b, phase_trans (a := [_]) (phase_needed m rfl s (e := .test i) ?_ ?_) hb, ?_⟩
    · intro h; rw [if_pos h]
    · intro h; rw [if_neg (by simp [h])]
    · rw [List.map_cons, hm, List.map_cons]

theorem tests_phase (m : Machine W) (src : Source) (path : Path) (s : St W) (r : Result) : ∃ b,
    Phase s (runTests m src path s r).1 r (runTests m src path s r).2 b ∧ Testing src path b := by
  unfold runTests
  cases hp : src.py with
  | false => exact ⟨[], phase_refl s r, Testing.none hp⟩
  | true =>
    rw [if_pos rfl]
    dsimp only
    cases hx : (ask m .listTests s).2.ok with
    | false =>
      rw [if_neg (by simp)]
      exact ⟨_, phase_free m rfl s rfl, Testing.unlisted _ hp hx⟩
    | true =>
      rw [if_pos rfl]
      obtain ⟨b, hb, hm⟩ := each_phase m path (ask m .listTests s).2.texts 1 (ask m .listTests s).1 r
      exact ⟨_ :: b, phase_trans (a := [_]) (phase_free m rfl s rfl) hb, Testing.all _ b hp hx hm⟩

theorem tag_eq (p : Pkg) : p.name ++ c!"-" ++ p.version.getD c!"unknown" = Spec.tag p := by
  unfold Spec.tag
  cases p.version <;> rfl

theorem tag_phase (m : Machine W) (p : Pkg) (message : Option Str) (s : St W) (r : Result) : ∃ b,
    Phase s (makeChangelog m (createTag m p message s r).1 (createTag m p message s r).2).1 r
      (makeChangelog m (createTag m p message s r).1 (createTag m p message s r).2).2 b ∧ Tagging p message b := by
  have hc : ∀ (s : St W) (r : Result), Phase s (makeChangelog m s r).1 r (makeChangelog m s r).2
      [(.changelog, (ask m .changelog s).2)] := by
    intro s r
    refine phase_free m rfl s ?_
    unfold makeChangelog
    dsimp only
    split <;> rfl
  unfold createTag
  dsimp only
  rw [tag_eq]
  by_cases hx : ((ask m (.tagged (Spec.tag p)) s).2.ok && (ask m (.tagged (Spec.tag p)) s).2.yes) = true
  · rw [if_pos hx]
    rw [Bool.and_eq_true] at hx
    exact ⟨_, phase_trans (phase_free m rfl s rfl) (hc _ r), Tagging.there _ _ hx.1 hx.2⟩
  · rw [if_neg hx]
    have hx' : (ask m (.tagged (Spec.tag p)) s).2.ok = false ∨ (ask m (.tagged (Spec.tag p)) s).2.yes = false := by
      simp only [Bool.and_eq_true, not_and_or, Bool.not_eq_true] at hx
      exact hx
    have hmsg : message = some (message.getD (c!"Release " ++ Spec.tag p)) ∨
        (message = none ∧ message.getD (c!"Release " ++ Spec.tag p) = c!"Release " ++ Spec.tag p) := by
      cases message with
      | none => exact Or.inr ⟨rfl, rfl⟩
      | some t => exact Or.inl rfl
    cases hy : (ask m (.tag (Spec.tag p) (message.getD (c!"Release " ++ Spec.tag p))) (ask m (.tagged (Spec.tag p)) s).1).2.ok with
    | true =>
      rw [if_pos rfl]
      refine ⟨_, phase_trans (phase_free m rfl s (r' := r) rfl) (phase_trans (phase_needed m rfl _ (e := .tag) (fun _ => rfl) ?_) (hc _ _)),
        Tagging.made _ _ _ _ hx' hmsg⟩
      intro h
      rw [hy] at h; cases h
    | false =>
      rw [if_neg (by simp)]
      refine ⟨_, phase_trans (phase_free m rfl s (r' := r) rfl) (phase_trans (phase_needed m rfl _ (e := .tag) ?_ (fun _ => rfl)) (hc _ _)),
        Tagging.made _ _ _ _ hx' hmsg⟩
      intro h
      rw [hy] at h; cases h

theorem install_phase (m : Machine W) (src : Source) (path : Path) (vcs : Bool) (s : St W) (r : Result)
    (hf : src.py = true ∨ src.yaml = true) : ∃ b, Installing src path vcs b ∧
    (installDefinition m src path (writeMetadata m path vcs s r).1 (writeMetadata m path vcs s r).2).1.log = s.log ++ b ∧
    Worked b ∧
    ((∃ r', (installDefinition m src path (writeMetadata m path vcs s r).1 (writeMetadata m path vcs s r).2).2 = some r' ∧
        r'.errors = r.errors ∧ ∃ a x, b.getLast? = some (a, x) ∧ x.ok = true) ∨
     ((installDefinition m src path (writeMetadata m path vcs s r).1 (writeMetadata m path vcs s r).2).2 = none ∧
        ∃ a x, b.getLast? = some (a, x) ∧ x.ok = false)) := by
  have hd : ∀ (s : St W) (r : Result), ∃ y : Answer,
      (installDefinition m src path s r).1.log = s.log ++ [(.copy (src.dir ++ [if src.py then c!"package.py" else c!"package.yaml"])
        (path ++ [if src.py then c!"package.py" else c!"package.yaml"]), y)] ∧
      (installDefinition m src path s r).2 = if y.ok then some r else none := by
    intro s r
    unfold installDefinition
    rw [if_neg (by rcases hf with h | h <;> simp [h])]
    exact ⟨_, rfl, rfl⟩
  have fin : ∀ (b : Log) (a : Act) (y : Answer) (r r1 : Result) (o : Option Result), r1.errors = r.errors → o = (if y.ok then some r1 else none) →
      ((∃ r', o = some r' ∧ r'.errors = r.errors ∧ ∃ a' x, (b ++ [(a, y)]).getLast? = some (a', x) ∧ x.ok = true) ∨
       (o = none ∧ ∃ a' x, (b ++ [(a, y)]).getLast? = some (a', x) ∧ x.ok = false)) := by
    intro b a y r r1 o he ho
    cases hy : y.ok with
    | true =>
      rw [hy] at ho
      exact Or.inl ⟨r1, ho, he, a, y, by simp, hy⟩
    | false =>
      rw [hy] at ho
      exact Or.inr ⟨ho, a, y, by simp, hy⟩
  cases vcs with
  | false =>
    obtain ⟨y, hl, ho⟩ := hd s r
    refine ⟨[(_, y)], Installing.nothing y _ rfl rfl, ?_, by simp [worked_one, needed], fin [] _ y r r _ rfl ?_⟩
    · exact hl
    · exact ho
  | true =>
    have hw : writeMetadata m path true s r = if (ask m .metadata s).2.ok then
        ((ask m (.write (path ++ [c!"vcs_metadata.json"]) (ask m .metadata s).2.text) (ask m .metadata s).1).1,
          if (ask m (.write (path ++ [c!"vcs_metadata.json"]) (ask m .metadata s).2.text) (ask m .metadata s).1).2.ok then
            { r with metadata := some (ask m .metadata s).2.text } else r)
        else ((ask m .metadata s).1, r) := rfl
    cases hx : (ask m .metadata s).2.ok with
    | false =>
      rw [hx, if_neg (by simp)] at hw
      rw [hw]
      obtain ⟨y, hl, ho⟩ := hd (ask m .metadata s).1 r
      refine ⟨[(.metadata, (ask m .metadata s).2), (_, y)], Installing.unknown _ y _ rfl hx rfl, ?_, by simp [Worked, needed],
        fin [_] _ y r r _ rfl ?_⟩
      · rw [hl, ask_log, List.append_assoc]; rfl
      · exact ho
    | true =>
      rw [hx, if_pos rfl] at hw
      rw [hw]
      dsimp only
      obtain ⟨y, hl, ho⟩ := hd (ask m (.write (path ++ [c!"vcs_metadata.json"]) (ask m .metadata s).2.text) (ask m .metadata s).1).1
        (if (ask m (.write (path ++ [c!"vcs_metadata.json"]) (ask m .metadata s).2.text) (ask m .metadata s).1).2.ok then
            { r with metadata := some (ask m .metadata s).2.text } else r)
      refine ⟨[(.metadata, (ask m .metadata s).2), (.write (path ++ [c!"vcs_metadata.json"]) (ask m .metadata s).2.text,
        (ask m (.write (path ++ [c!"vcs_metadata.json"]) (ask m .metadata s).2.text) (ask m .metadata s).1).2), (_, y)],
        Installing.known _ y _ _ rfl hx rfl, ?_, by simp [Worked, needed], fin [_, _] _ y r _ _ ?_ ho⟩
      · rw [hl, ask_log, ask_log, List.append_assoc, List.append_assoc]; rfl
      · split <;> rfl

end ManagerLemmas

namespace ManagerLemmas

theorem load_good {src : Source} {p : Pkg} (h : Good src p) : loadPackage src =
    (p, { name := p.name, version := p.version.getD c!"unknown", errors := [] }) := by
  obtain ⟨hf, hl, hn, hv⟩ := h
  unfold loadPackage
  rw [if_neg (by rcases hf with h | h <;> simp [h]), hl]
  dsimp only
  rw [if_neg (by simpa using hn), if_neg (by simpa using hv)]
  rfl

theorem load_bad {src : Source} (h : ∀ p, ¬ Good src p) : (loadPackage src).2.errors ≠ [] ∧ (loadPackage src).2.success = false := by
  unfold loadPackage
  by_cases hf : (!src.py && !src.yaml) = true
  · rw [if_pos hf]
    exact ⟨by simp, rfl⟩
  · rw [if_neg hf]
    cases hl : src.loaded with
    | none => exact ⟨by simp, rfl⟩
    | some p =>
      refine ⟨?_, rfl⟩
      intro he
      have he : (if p.name.isEmpty then [Problem.name] else []) ++ (if p.version.isNone then [Problem.version] else []) = [] := he
      refine h p ⟨?_, hl, ?_, ?_⟩
      · cases h1 : src.py <;> cases h2 : src.yaml <;> simp_all
      · rintro hn
        rw [hn] at he
        simp at he
      · intro hv
        rw [hv] at he
        simp at he

end ManagerLemmas

/-- **C158**: all that a release of a package that can be released does, in its order, and what comes back: the repository is
looked at first, then the package is built, then tested, then tagged, and at last the definition is installed.  It succeeds
if and only if all that is needed worked. -/
theorem C158_runs {W : Type} (m : Machine W) (t : Texts) (c : Settings) (g : Manager) (src : Source) (message : Option Str) (w : W)
    (p : Pkg) (h : Good src p) :
    Runs t g src p message (installPath g.mode c p) (release m t c g src message w).1.log
      ((release m t c g src message w).2.map (·.success)) := by
  unfold release
  dsimp only
  rw [ManagerLemmas.load_good h]
  dsimp only
  rw [if_neg (by simp)]
  generalize hpath : installPath g.mode c p = path
  generalize hr0 : ({ name := p.name, version := p.version.getD c!"unknown", path := path, errors := [] } : Result) = r0
  have hr0e : r0.errors = [] := by rw [← hr0]
  have hlook : ∃ a, ManagerLemmas.Phase (⟨w, []⟩ : St W)
      (if g.skipVcs then ((⟨w, []⟩ : St W), r0, false) else validateVcs m src ⟨w, []⟩ r0).1 r0
      (if g.skipVcs then ((⟨w, []⟩ : St W), r0, false) else validateVcs m src ⟨w, []⟩ r0).2.1 a ∧
      (if g.skipVcs then a = [] ∧ (if g.skipVcs then ((⟨w, []⟩ : St W), r0, false) else validateVcs m src ⟨w, []⟩ r0).2.2 = false
        else Looking src (if g.skipVcs then ((⟨w, []⟩ : St W), r0, false) else validateVcs m src ⟨w, []⟩ r0).2.2 a) := by
    cases hs : g.skipVcs with
    | true => exact ⟨[], ManagerLemmas.phase_refl _ _, rfl, rfl⟩
    | false =>
      obtain ⟨a, h1, h2⟩ := ManagerLemmas.look_phase m src ⟨w, []⟩ r0
      exact ⟨a, h1, h2⟩
  generalize (if g.skipVcs then ((⟨w, []⟩ : St W), r0, false) else validateVcs m src ⟨w, []⟩ r0) = v at hlook ⊢
  obtain ⟨s1, r1, vcs⟩ := v
  obtain ⟨a, ha1, ha2⟩ := hlook
  dsimp only at ha1 ha2 ⊢
  have hla : s1.log = a := by simpa using ha1.1
  have ha2' : if g.skipVcs then a = [] else Looking src vcs a := by
    cases hs : g.skipVcs with
    | true => rw [hs] at ha2; exact ha2.1
    | false => rw [hs] at ha2; exact ha2
  by_cases hd : g.mode = .dryRun
  · rw [if_pos hd]
    show Runs t g src p message path s1.log (some true)
    rw [hla]
    exact Runs.dry vcs a hd ha2'
  · rw [if_neg hd]
    have hbuild : ∃ b, (if g.skipBuild then b = [] else Building t src p path b) ∧
        ((∃ r2, (if g.skipBuild then (s1, some r1) else buildPackage m t src p path s1 r1).2 = some r2 ∧
            ManagerLemmas.Phase s1 (if g.skipBuild then (s1, some r1) else buildPackage m t src p path s1 r1).1 r1 r2 b) ∨
         ((if g.skipBuild then (s1, some r1) else buildPackage m t src p path s1 r1).2 = none ∧ g.skipBuild = false ∧
          (if g.skipBuild then (s1, some r1) else buildPackage m t src p path s1 r1).1.log = s1.log ++ b ∧
          ∃ x, b = [(.mkdirs path, x)] ∧ x.ok = false)) := by
      cases hs : g.skipBuild with
      | true => exact ⟨[], rfl, Or.inl ⟨r1, rfl, ManagerLemmas.phase_refl _ _⟩⟩
      | false =>
        obtain ⟨b, h1, h2⟩ := ManagerLemmas.build_phase m t src p path s1 r1
        refine ⟨b, h1, ?_⟩
        rcases h2 with h2 | ⟨h2, h3⟩
        · exact Or.inl h2
        · exact Or.inr ⟨h2, rfl, h3⟩
    generalize (if g.skipBuild then (s1, some r1) else buildPackage m t src p path s1 r1) = bb at hbuild ⊢
    obtain ⟨s2, o⟩ := bb
    obtain ⟨b, hb1, hb2⟩ := hbuild
    rcases hb2 with ⟨r2, ho, hph⟩ | ⟨ho, hsk, hlb, x, hbx, hx⟩
    · have ho : o = some r2 := ho
      subst ho
      have hph : ManagerLemmas.Phase s1 s2 r1 r2 b := hph
      show Runs t g src p message path (finish m g src p message path vcs s2 r2).1.log
        ((finish m g src p message path vcs s2 r2).2.map (·.success))
      unfold finish
      dsimp only
      have htest : ∃ c, ManagerLemmas.Phase s2 (if g.skipTests then (s2, r2) else runTests m src path s2 r2).1 r2
          (if g.skipTests then (s2, r2) else runTests m src path s2 r2).2 c ∧
          (if g.skipTests then c = [] else Testing src path c) := by
        cases hs : g.skipTests with
        | true => exact ⟨[], ManagerLemmas.phase_refl _ _, rfl⟩
        | false => exact ManagerLemmas.tests_phase m src path s2 r2
      generalize (if g.skipTests then (s2, r2) else runTests m src path s2 r2) = tt at htest ⊢
      obtain ⟨s3, r3⟩ := tt
      obtain ⟨cc, hc1, hc2⟩ := htest
      dsimp only at hc1 ⊢
      have htag : ∃ d, ManagerLemmas.Phase s3
          (if vcs then makeChangelog m (if vcs then createTag m p message s3 r3 else (s3, r3)).1
            (if vcs then createTag m p message s3 r3 else (s3, r3)).2 else (if vcs then createTag m p message s3 r3 else (s3, r3))).1 r3
          (if vcs then makeChangelog m (if vcs then createTag m p message s3 r3 else (s3, r3)).1
            (if vcs then createTag m p message s3 r3 else (s3, r3)).2 else (if vcs then createTag m p message s3 r3 else (s3, r3))).2 d ∧
          (if vcs then Tagging p message d else d = []) := by
        cases vcs with
        | false => exact ⟨[], ManagerLemmas.phase_refl _ _, rfl⟩
        | true => exact ManagerLemmas.tag_phase m p message s3 r3
      generalize (if vcs then makeChangelog m (if vcs then createTag m p message s3 r3 else (s3, r3)).1
            (if vcs then createTag m p message s3 r3 else (s3, r3)).2 else (if vcs then createTag m p message s3 r3 else (s3, r3)))
            = gg at htag ⊢
      obtain ⟨s4, r4⟩ := gg
      obtain ⟨d, hd1, hd2⟩ := htag
      dsimp only at hd1 ⊢
      obtain ⟨e, he1, hel, hew, hres⟩ := ManagerLemmas.install_phase m src path vcs s4 r4 h.1
      have hall := ManagerLemmas.phase_trans (ManagerLemmas.phase_trans (ManagerLemmas.phase_trans ha1 hph) hc1) hd1
      have hlog : (installDefinition m src path (writeMetadata m path vcs s4 r4).1 (writeMetadata m path vcs s4 r4).2).1.log =
          a ++ b ++ cc ++ d ++ e := by
        rw [hel, hall.1]
        rfl
      rw [hlog]
      rcases hres with ⟨r', hr', her, f, x, hlast, hx⟩ | ⟨hnone, f, x, hlast, hx⟩
      · rw [hr']
        refine Runs.done vcs a b cc d e f x _ hd ha2 hb1 hc2 hd2 he1 hlast hx ?_
        rw [ManagerLemmas.worked_append]
        obtain ⟨-, es, hes, hiff⟩ := hall
        rw [List.isEmpty_iff, her, hes, hr0e, List.nil_append, hiff]
        exact ⟨fun h => ⟨h, hew⟩, fun h => h.1⟩
      · rw [hnone]
        exact Runs.failed vcs a b cc d e f x hd ha2 hb1 hc2 hd2 he1 hlast hx
    · have ho : o = none := ho
      subst ho
      show Runs t g src p message path s2.log none
      have hlb : s2.log = s1.log ++ b := hlb
      rw [hlb, hla, hbx]
      exact Runs.noDir vcs a x hd ha2' hsk hx

/-- **C158**: a package that cannot be released — there is no definition, it cannot be read, or it has no name or no version —
is not: nothing at all is done, and the result says so. -/
theorem C158_bad {W : Type} (m : Machine W) (t : Texts) (c : Settings) (g : Manager) (src : Source) (message : Option Str) (w : W)
    (h : ∀ p, ¬ Good src p) :
    (release m t c g src message w).1.log = [] ∧
      ∃ r, (release m t c g src message w).2 = some r ∧ r.success = false ∧ r.errors ≠ [] := by
  obtain ⟨h1, h2⟩ := ManagerLemmas.load_bad h
  unfold release
  dsimp only
  rw [if_pos (by simpa using h1)]
  exact ⟨rfl, _, rfl, h2, h1⟩

/-- **C158**: a release that succeeds, and is not a dry run: the repository was found in order, if there is one and it was to
be looked at; every directory was made; every test passed; the tag was made, or was there; and the definition was copied. -/
theorem C158_success {W : Type} (m : Machine W) (t : Texts) (c : Settings) (g : Manager) (src : Source) (message : Option Str) (w : W)
    (hd : g.mode ≠ .dryRun) (h : ∃ r, (release m t c g src message w).2 = some r ∧ r.success = true) :
    ∃ p, Good src p ∧ Worked (release m t c g src message w).1.log ∧
      (g.skipVcs = false → src.vcs = true →
        (∃ x, (Act.validate, x) ∈ (release m t c g src message w).1.log ∧ x.ok = true) ∧
        ((∃ x, (Act.tagged (Spec.tag p), x) ∈ (release m t c g src message w).1.log ∧ x.ok = true ∧ x.yes = true) ∨
          ∃ msg x, (Act.tag (Spec.tag p) msg, x) ∈ (release m t c g src message w).1.log ∧ x.ok = true)) ∧
      ∃ file x, (file = c!"package.py" ∨ file = c!"package.yaml") ∧ x.ok = true ∧
        (release m t c g src message w).1.log.getLast? =
          some (.copy (src.dir ++ [file]) (installPath g.mode c p ++ [file]), x) := by
  obtain ⟨r, hr, hs⟩ := h
  by_cases hg : ∃ p, Good src p
  · obtain ⟨p, hp⟩ := hg
    refine ⟨p, hp, ?_⟩
    have hruns := C158_runs m t c g src message w p hp
    rw [hr] at hruns
    generalize (release m t c g src message w).1.log = log at hruns ⊢
    have hruns : Runs t g src p message (installPath g.mode c p) log (some r.success) := hruns
    rw [hs] at hruns
    generalize hob : (some true : Option Bool) = ob at hruns
    cases hruns with
    | dry _ _ hdry => exact absurd hdry hd
    | noDir => cases hob
    | failed => cases hob
    | done vcs a b cc d e f x ok hd ha hb hc ht he hl hx hok =>
      have hw := hok.1 (Option.some.inj hob).symm
      refine ⟨hw, ?_, ?_⟩
      · intro hsv hv
        rw [hsv] at ha
        have ha : Looking src vcs a := ha
        cases ha with
        | none h => rw [hv] at h; cases h
        | bad y h hy =>
          have := hw (.validate, y) (by simp) rfl
          rw [hy] at this; cases this
        | good y z h hy =>
          refine ⟨⟨y, by simp, hy⟩, ?_⟩
          have ht : Tagging p message d := ht
          cases ht with
          | there x y hx hy => exact Or.inl ⟨x, by simp, hx, hy⟩
          | made x y z msg hx hm =>
            exact Or.inr ⟨msg, y, by simp, hw (.tag (Spec.tag p) msg, y) (by simp) rfl⟩
      · have key : ∀ (pre : Log), (pre ++ e).getLast? = some (f, x) := by
          intro pre
          rw [List.getLast?_append, hl]
          rfl
        rw [key]
        cases he with
        | nothing y file hv hf =>
          refine ⟨file, x, ?_, hx, ?_⟩
          · rw [hf]; split <;> simp
          · simp at hl
            rw [← hl.1]
        | unknown y z file hv hy hf =>
          refine ⟨file, x, ?_, hx, ?_⟩
          · rw [hf]; split <;> simp
          · simp at hl
            rw [← hl.1]
        | known y z u file hv hy hf =>
          refine ⟨file, x, ?_, hx, ?_⟩
          · rw [hf]; split <;> simp
          · simp at hl
            rw [← hl.1]
  · obtain ⟨-, r', hr', hf, -⟩ := C158_bad m t c g src message w (by simpa using hg)
    rw [hr] at hr'
    cases hr'
    rw [hs] at hf
    cases hf

/-- **C158**: a dry run only looks at the repository. -/
theorem C158_dry {W : Type} (m : Machine W) (t : Texts) (c : Settings) (g : Manager) (src : Source) (message : Option Str) (w : W)
    (hd : g.mode = .dryRun) : ∀ x ∈ (release m t c g src message w).1.log, looks x.1 = true := by
  by_cases hg : ∃ p, Good src p
  · obtain ⟨p, hp⟩ := hg
    have hruns := C158_runs m t c g src message w p hp
    generalize (release m t c g src message w).1.log = log at hruns ⊢
    generalize (release m t c g src message w).2.map (·.success) = ob at hruns
    cases hruns with
    | dry vcs a _ ha =>
      intro x hx
      cases hs : g.skipVcs with
      | true =>
        rw [hs] at ha
        have ha : log = [] := ha
        subst ha
        cases hx
      | false =>
        rw [hs] at ha
        have ha : Looking src vcs log := ha
        cases ha <;> simp at hx
        · subst hx; rfl
        · rcases hx with rfl | rfl <;> rfl
    | noDir _ _ _ hd' => exact absurd hd hd'
    | failed _ _ _ _ _ _ _ _ hd' => exact absurd hd hd'
    | done _ _ _ _ _ _ _ _ _ hd' => exact absurd hd hd'
  · rw [(C158_bad m t c g src message w (by simpa using hg)).1]
    simp

namespace ManagerLemmas

theorem variants_inside {t : Texts} {src : Source} {path : Path} {l : List (List Str)} {b : Log} (h : Variants t src path l b) :
    ∀ x ∈ b, (∃ q, x.1 = .mkdirs q ∧ path.IsPrefix q) ∨
      (∃ q, x.1 = .copy (src.dir ++ [c!"package.py"]) q ∧ path.IsPrefix q ∧ q ≠ path) ∨
      ∃ q s, x.1 = .write q s ∧ path.IsPrefix q ∧ q ≠ path := by
  induction h with
  | nil => simp
  | failed v l x log hx h ih =>
    intro y hy
    rcases List.mem_cons.1 hy with rfl | hy
    · exact Or.inl ⟨_, rfl, List.prefix_append _ _⟩
    · exact ih y hy
  | filled v l x y z log hx h ih =>
    intro u hu
    rcases List.mem_cons.1 hu with rfl | hu
    · exact Or.inl ⟨_, rfl, List.prefix_append _ _⟩
    · rcases List.mem_append.1 hu with hu | hu
      · split at hu
        · rw [List.mem_singleton] at hu
          subst hu
          exact Or.inr (Or.inl ⟨_, rfl, List.prefix_append _ _, by simp⟩)
        · cases hu
      · rcases List.mem_cons.1 hu with rfl | hu
        · exact Or.inr (Or.inr ⟨_, _, rfl, List.prefix_append _ _, by simp⟩)
        · exact ih u hu

end ManagerLemmas

/-- **C159**: whatever happens, files and directories are made below the directory of the package only, and of the source
nothing is copied but the definition of the package. -/
theorem C159_inside {W : Type} (m : Machine W) (t : Texts) (c : Settings) (g : Manager) (src : Source) (message : Option Str) (w : W)
    (p : Pkg) (h : Good src p) : ∀ x ∈ (release m t c g src message w).1.log, files x.1 = true →
      (∃ q, x.1 = .mkdirs q ∧ (installPath g.mode c p).IsPrefix q) ∨
      (∃ file q, x.1 = .copy (src.dir ++ [file]) q ∧ (file = c!"package.py" ∨ file = c!"package.yaml") ∧
        (installPath g.mode c p).IsPrefix q ∧ q ≠ installPath g.mode c p) ∨
      ∃ q s, x.1 = .write q s ∧ (installPath g.mode c p).IsPrefix q ∧ q ≠ installPath g.mode c p := by
  have hruns := C158_runs m t c g src message w p h
  generalize (release m t c g src message w).1.log = log at hruns ⊢
  generalize (release m t c g src message w).2.map (·.success) = ob at hruns
  generalize installPath g.mode c p = path at hruns ⊢
  have look : ∀ (vcs : Bool) (a : Log), Looking src vcs a → ∀ x ∈ a, files x.1 = false := by
    intro vcs a ha x hx
    cases ha <;> simp at hx
    · subst hx; rfl
    · rcases hx with rfl | rfl <;> rfl
  have look' : ∀ (vcs : Bool) (a : Log) (P : Prop), (if g.skipVcs then a = [] ∧ P else Looking src vcs a) → ∀ x ∈ a, files x.1 = false := by
    intro vcs a P ha x hx
    cases hs : g.skipVcs with
    | true =>
      rw [hs] at ha
      have ha : a = [] ∧ P := ha
      rw [ha.1] at hx; cases hx
    | false => rw [hs] at ha; exact look vcs a ha x hx
  have build : ∀ b : Log, (if g.skipBuild then b = [] else Building t src p path b) → ∀ x ∈ b,
      (∃ q, x.1 = .mkdirs q ∧ path.IsPrefix q) ∨
      (∃ file q, x.1 = .copy (src.dir ++ [file]) q ∧ (file = c!"package.py" ∨ file = c!"package.yaml") ∧ path.IsPrefix q ∧ q ≠ path) ∨
      ∃ q s, x.1 = .write q s ∧ path.IsPrefix q ∧ q ≠ path := by
    intro b hb x hx
    cases hs : g.skipBuild with
    | true =>
      rw [hs] at hb
      have hb : b = [] := hb
      rw [hb] at hx; cases hx
    | false =>
      rw [hs] at hb
      have hb : Building t src p path b := hb
      cases hb with
      | failed y hy =>
        rw [List.mem_singleton] at hx
        subst hx
        exact Or.inl ⟨_, rfl, List.prefix_refl _⟩
      | variants y log hy hv hvs =>
        rcases List.mem_cons.1 hx with rfl | hx
        · exact Or.inl ⟨_, rfl, List.prefix_refl _⟩
        · rcases ManagerLemmas.variants_inside hvs x hx with h | ⟨q, h1, h2⟩ | h
          · exact Or.inl h
          · exact Or.inr (Or.inl ⟨_, q, h1, Or.inl rfl, h2⟩)
          · exact Or.inr (Or.inr h)
      | plain y z hy hv hp =>
        simp only [List.mem_cons, List.not_mem_nil, or_false] at hx
        rcases hx with rfl | rfl
        · exact Or.inl ⟨_, rfl, List.prefix_refl _⟩
        · exact Or.inr (Or.inl ⟨_, _, rfl, Or.inl rfl, List.prefix_append _ _, by simp⟩)
      | empty y hy hv hp =>
        rw [List.mem_singleton] at hx
        subst hx
        exact Or.inl ⟨_, rfl, List.prefix_refl _⟩
  have test : ∀ b : Log, (if g.skipTests then b = [] else Testing src path b) → ∀ x ∈ b, files x.1 = false := by
    intro b hb x hx
    cases hs : g.skipTests with
    | true =>
      rw [hs] at hb
      have hb : b = [] := hb
      rw [hb] at hx; cases hx
    | false =>
      rw [hs] at hb
      have hb : Testing src path b := hb
      cases hb with
      | none => cases hx
      | unlisted y h1 h2 =>
        rw [List.mem_singleton] at hx
        subst hx; rfl
      | all y l h1 h2 hl =>
        rcases List.mem_cons.1 hx with rfl | hx
        · rfl
        · have : x.1 ∈ l.map (·.1) := List.mem_map_of_mem hx
          rw [hl, List.mem_map] at this
          obtain ⟨s, -, hs⟩ := this
          rw [← hs]; rfl
  have tagging : ∀ (vcs : Bool) (b : Log), (if vcs then Tagging p message b else b = []) → ∀ x ∈ b, files x.1 = false := by
    intro vcs b hb x hx
    cases vcs with
    | false =>
      have hb : b = [] := hb
      rw [hb] at hx; cases hx
    | true =>
      have hb : Tagging p message b := hb
      cases hb <;> simp at hx
      · rcases hx with rfl | rfl <;> rfl
      · rcases hx with rfl | rfl | rfl <;> rfl
  have install : ∀ (vcs : Bool) (b : Log), Installing src path vcs b → ∀ x ∈ b, files x.1 = true →
      (∃ file q, x.1 = .copy (src.dir ++ [file]) q ∧ (file = c!"package.py" ∨ file = c!"package.yaml") ∧ path.IsPrefix q ∧ q ≠ path) ∨
      ∃ q s, x.1 = .write q s ∧ path.IsPrefix q ∧ q ≠ path := by
    intro vcs b hb x hx hfl
    have hfile : ∀ file : Str, file = (if src.py then c!"package.py" else c!"package.yaml") →
        file = c!"package.py" ∨ file = c!"package.yaml" := by
      intro file hf
      rw [hf]; split <;> simp
    cases hb with
    | nothing y file hv hf =>
      rw [List.mem_singleton] at hx
      subst hx
      exact Or.inl ⟨file, _, rfl, hfile file hf, List.prefix_append _ _, by simp⟩
    | unknown y z file hv hy hf =>
      simp only [List.mem_cons, List.not_mem_nil, or_false] at hx
      rcases hx with rfl | rfl
      · cases hfl
      · exact Or.inl ⟨file, _, rfl, hfile file hf, List.prefix_append _ _, by simp⟩
    | known y z u file hv hy hf =>
      simp only [List.mem_cons, List.not_mem_nil, or_false] at hx
      rcases hx with rfl | rfl | rfl
      · cases hfl
      · exact Or.inr ⟨_, _, rfl, List.prefix_append _ _, by simp⟩
      · exact Or.inl ⟨file, _, rfl, hfile file hf, List.prefix_append _ _, by simp⟩
  intro x hx hfl
  have all : ∀ (vcs : Bool) (a b c d e : Log), (if g.skipVcs then a = [] ∧ vcs = false else Looking src vcs a) →
      (if g.skipBuild then b = [] else Building t src p path b) → (if g.skipTests then c = [] else Testing src path c) →
      (if vcs then Tagging p message d else d = []) → Installing src path vcs e → x ∈ a ++ b ++ c ++ d ++ e →
      (∃ q, x.1 = .mkdirs q ∧ path.IsPrefix q) ∨
      (∃ file q, x.1 = .copy (src.dir ++ [file]) q ∧ (file = c!"package.py" ∨ file = c!"package.yaml") ∧ path.IsPrefix q ∧ q ≠ path) ∨
      ∃ q s, x.1 = .write q s ∧ path.IsPrefix q ∧ q ≠ path := by
    intro vcs a b c d e ha hb hc hd he hx
    simp only [List.mem_append] at hx
    rcases hx with (((hx | hx) | hx) | hx) | hx
    · rw [look' vcs a _ ha x hx] at hfl; cases hfl
    · exact build b hb x hx
    · rw [test c hc x hx] at hfl; cases hfl
    · rw [tagging vcs d hd x hx] at hfl; cases hfl
    · exact Or.inr (install vcs e he x hx hfl)
  cases hruns with
  | dry vcs a hd ha =>
    rw [look' vcs log True (by cases hs : g.skipVcs <;> rw [hs] at ha; exact ha; exact ⟨ha, trivial⟩) x hx] at hfl
    cases hfl
  | noDir vcs a y hd ha hb hy =>
    rcases List.mem_append.1 hx with hx | hx
    · rw [look' vcs a True (by cases hs : g.skipVcs <;> rw [hs] at ha; exact ha; exact ⟨ha, trivial⟩) x hx] at hfl
      cases hfl
    · rw [List.mem_singleton] at hx
      subst hx
      exact Or.inl ⟨_, rfl, List.prefix_refl _⟩
  | failed vcs a b c d e f y hd ha hb hc ht he => exact all vcs a b c d e ha hb hc ht he hx
  | done vcs a b c d e f y ok hd ha hb hc ht he => exact all vcs a b c d e ha hb hc ht he hx

/-- **C159**: the directory of a package is that of its version in that of its name, in the directory that the mode stands
for; a tilde in front of it is the home directory.  It is where the result says. -/
theorem C159_path (mode : Mode) (c : Settings) (p : Pkg) (v : Str) (hn : Spec.Files.Component p.name) (hv : p.version = some v)
    (hc : Spec.Files.Component v) (rest : Str) :
    (baseOf mode c = '~' :: rest → c.home ≠ [] →
      installPath mode c p = join c.cwd (c.home ++ rest) ++ [p.name, v]) ∧
    ((∀ r, baseOf mode c ≠ '~' :: r) ∨ c.home = [] → installPath mode c p = join c.cwd (baseOf mode c) ++ [p.name, v]) := by
  have hb : installPath mode c p = join (join (join c.cwd (expandHome c.home (baseOf mode c))) p.name) v := by
    unfold installPath baseOf
    rw [hv]
    cases mode with
    | release =>
      dsimp only
      by_cases h : c.releasePath = [] ∨ c.releasePath = c!"~/.rez/packages/int"
      · rw [if_pos h, if_neg]
        · rfl
        · rcases h with h | h <;> simp [h]
      · rw [if_neg h, if_pos]
        · rfl
        · rw [not_or] at h
          simpa using h
    | «local» => rfl
    | dryRun => rfl
  rw [FilesLemmas.join_component _ hc, FilesLemmas.join_component _ hn] at hb
  have hb : installPath mode c p = join c.cwd (expandHome c.home (baseOf mode c)) ++ [p.name, v] := by
    rw [hb, List.append_assoc]; rfl
  constructor
  · intro h hh
    rw [hb, h]
    show join c.cwd (if c.home.isEmpty then _ else c.home ++ rest) ++ _ = _
    rw [if_neg (by simpa using hh)]
  · intro h
    rw [hb]
    congr 2
    unfold expandHome
    split
    · rename_i r he
      rcases h with h | h
      · exact absurd he (h r)
      · rw [if_pos (by simp [h])]
    · rfl

namespace ManagerLemmas

variable {W : Type}

/-- What a result says about the package. -/
def Same (r r' : Result) : Prop := r'.name = r.name ∧ r'.version = r.version ∧ r'.path = r.path ∧ r'.dry = r.dry

theorem same_refl (r : Result) : Same r r := ⟨rfl, rfl, rfl, rfl⟩

theorem same_trans {r r' r'' : Result} (h1 : Same r r') (h2 : Same r' r'') : Same r r'' :=
  ⟨h2.1.trans h1.1, h2.2.1.trans h1.2.1, h2.2.2.1.trans h1.2.2.1, h2.2.2.2.trans h1.2.2.2⟩

theorem look_same (m : Machine W) (src : Source) (s : St W) (r : Result) : Same r (validateVcs m src s r).2.1 := by
  unfold validateVcs
  dsimp only
  split
  · split
    · exact ⟨rfl, rfl, rfl, rfl⟩
    · exact ⟨rfl, rfl, rfl, rfl⟩
  · exact same_refl r

theorem variants_same (m : Machine W) (t : Texts) (src : Source) (path : Path) (l : List (List Str)) : ∀ (s : St W) (r : Result),
    Same r (buildVariants m t src path l s r).2 := by
  induction l with
  | nil => intro s r; exact same_refl r
  | cons v l ih =>
    intro s r
    refine same_trans ?_ (ih _ _)
    unfold buildVariant
    dsimp only
    split
    · exact ⟨rfl, rfl, rfl, rfl⟩
    · exact same_refl r

theorem build_same (m : Machine W) (t : Texts) (src : Source) (p : Pkg) (path : Path) (s : St W) (r r' : Result)
    (h : (buildPackage m t src p path s r).2 = some r') : Same r r' := by
  unfold buildPackage at h
  dsimp only at h
  split at h
  · cases h
  · split at h
    · cases h
      exact variants_same m t src path _ _ _
    · split at h <;> cases h <;> exact same_refl _

theorem each_same (m : Machine W) (path : Path) (l : List Str) : ∀ (i : Nat) (s : St W) (r : Result),
    Same r (runEach m path i l s r).2 := by
  induction l with
  | nil => intro i s r; exact same_refl r
  | cons c l ih =>
    intro i s r
    refine same_trans ?_ (ih _ _ _)
    split <;> exact ⟨rfl, rfl, rfl, rfl⟩

theorem finish_same (m : Machine W) (g : Manager) (src : Source) (p : Pkg) (message : Option Str) (path : Path) (vcs : Bool)
    (s : St W) (r r' : Result) (h : (finish m g src p message path vcs s r).2 = some r') : Same r r' := by
  unfold finish at h
  dsimp only at h
  rw [Option.map_eq_some_iff] at h
  obtain ⟨r6, h6, rfl⟩ := h
  have e6 : ∀ (s : St W) (r r' : Result), (installDefinition m src path s r).2 = some r' → Same r r' := by
    intro s r r' h
    unfold installDefinition at h
    dsimp only at h
    split at h
    · cases h; exact same_refl _
    · split at h <;> split at h <;> cases h <;> exact same_refl _
  have e5 : ∀ (s : St W) (r : Result), Same r (writeMetadata m path vcs s r).2 := by
    intro s r
    unfold writeMetadata
    dsimp only
    split
    · split
      · split <;> exact ⟨rfl, rfl, rfl, rfl⟩
      · exact same_refl _
    · exact same_refl _
  have e4 : ∀ (s : St W) (r : Result), Same r (makeChangelog m s r).2 := by
    intro s r
    unfold makeChangelog
    dsimp only
    split <;> exact ⟨rfl, rfl, rfl, rfl⟩
  have e3 : ∀ (s : St W) (r : Result), Same r (createTag m p message s r).2 := by
    intro s r
    unfold createTag
    dsimp only
    split
    · exact same_refl _
    · split <;> exact ⟨rfl, rfl, rfl, rfl⟩
  have e2 : ∀ (s : St W) (r : Result), Same r (runTests m src path s r).2 := by
    intro s r
    unfold runTests
    dsimp only
    split
    · exact each_same m path _ _ _ _
    · exact same_refl _
  refine same_trans ?_ (same_trans (e6 _ _ _ h6) ⟨rfl, rfl, rfl, rfl⟩)
  refine same_trans ?_ (e5 _ _)
  have h1 : Same r (if g.skipTests then (s, r) else runTests m src path s r).2 := by
    split
    · exact same_refl _
    · exact e2 s r
  cases vcs with
  | false => exact h1
  | true => exact same_trans h1 (same_trans (e3 _ _) (e4 _ _))

end ManagerLemmas

/-- **C159**: the result says where the package is. -/
theorem C159_result {W : Type} (m : Machine W) (t : Texts) (c : Settings) (g : Manager) (src : Source) (message : Option Str) (w : W)
    (p : Pkg) (h : Good src p) (r : Result) (hr : (release m t c g src message w).2 = some r) :
    r.path = installPath g.mode c p ∧ r.name = p.name ∧ p.version = some r.version ∧ (r.dry = true ↔ g.mode = .dryRun) := by
  obtain ⟨v, hv⟩ := Option.ne_none_iff_exists'.1 h.2.2.2
  unfold release at hr
  dsimp only at hr
  rw [ManagerLemmas.load_good h] at hr
  dsimp only at hr
  rw [if_neg (by simp)] at hr
  have key : ∀ r' : Result, ManagerLemmas.Same
      ({ name := p.name, version := p.version.getD c!"unknown", path := installPath g.mode c p, errors := [] } : Result) r' →
      r'.path = installPath g.mode c p ∧ r'.name = p.name ∧ p.version = some r'.version ∧ r'.dry = false := by
    rintro r' ⟨h1, h2, h3, h4⟩
    refine ⟨h3, h1, ?_, h4⟩
    rw [h2, hv]
    rfl
  have hl : ManagerLemmas.Same
      ({ name := p.name, version := p.version.getD c!"unknown", path := installPath g.mode c p, errors := [] } : Result)
      (if g.skipVcs then ((⟨w, []⟩ : St W), ({ name := p.name, version := p.version.getD c!"unknown", path := installPath g.mode c p, errors := [] } : Result), false)
        else validateVcs m src ⟨w, []⟩ { name := p.name, version := p.version.getD c!"unknown", path := installPath g.mode c p, errors := [] }).2.1 := by
    split
    · exact ManagerLemmas.same_refl _
    · exact ManagerLemmas.look_same m src _ _
  generalize (if g.skipVcs then ((⟨w, []⟩ : St W), ({ name := p.name, version := p.version.getD c!"unknown", path := installPath g.mode c p, errors := [] } : Result), false)
        else validateVcs m src ⟨w, []⟩ { name := p.name, version := p.version.getD c!"unknown", path := installPath g.mode c p, errors := [] }) = lv at hl hr
  obtain ⟨s1, r1, vcs⟩ := lv
  dsimp only at hl hr
  by_cases hd : g.mode = .dryRun
  · rw [if_pos hd] at hr
    cases hr
    obtain ⟨h1, h2, h3, -⟩ := key r1 hl
    exact ⟨h1, h2, h3, by simp [hd]⟩
  · rw [if_neg hd] at hr
    have fin : ∀ (s2 : St W) (r2 : Result), ManagerLemmas.Same r1 r2 →
        (finish m g src p message (installPath g.mode c p) vcs s2 r2).2 = some r →
        r.path = installPath g.mode c p ∧ r.name = p.name ∧ p.version = some r.version ∧ (r.dry = true ↔ g.mode = .dryRun) := by
      intro s2 r2 h12 hf
      obtain ⟨h1, h2, h3, h4⟩ := key r (ManagerLemmas.same_trans hl (ManagerLemmas.same_trans h12
        (ManagerLemmas.finish_same m g src p message _ vcs s2 r2 r hf)))
      exact ⟨h1, h2, h3, by simp [h4, hd]⟩
    cases hs : g.skipBuild with
    | true =>
      rw [hs] at hr
      exact fin s1 r1 (ManagerLemmas.same_refl _) hr
    | false =>
      rw [hs, if_neg (by simp)] at hr
      cases hb : (buildPackage m t src p (installPath g.mode c p) s1 r1).2 with
      | none => rw [hb] at hr; cases hr
      | some r2 =>
        rw [hb] at hr
        exact fin _ r2 (ManagerLemmas.build_same m t src p _ s1 r1 r2 hb) hr

namespace ManagerExamples

/-- A machine: a file system, the tags, whether the repository is in order, and the tests that fail. -/
structure World where
  fs : FS
  tags : List Str := []
  clean : Bool := true
  tests : List Str := []
  failing : List Str := []
deriving DecidableEq

/-- Copying as the system does it: the file is emptied first, and read then. -/
def copyFile (fs : FS) (a b : Path) : FS × Bool :=
  match mget fs a with
  | some (.file _) =>
    let fs1 := mset fs b (.file [])
    ((match mget fs1 a with | some e => mset fs1 b e | none => fs1), true)
  | _ => (fs, false)

/-- How it answers. -/
def machine : Machine World := fun a w =>
  match a with
  | .validate => (w, ⟨w.clean, false, [], []⟩)
  | .metadata => (w, ⟨true, false, c!"git", []⟩)
  | .mkdirs p => ({ w with fs := run w.fs (mkdirAll p) }, ⟨true, false, [], []⟩)
  | .copy a b => ({ w with fs := (copyFile w.fs a b).1 }, ⟨(copyFile w.fs a b).2, false, [], []⟩)
  | .write p t => ({ w with fs := mset w.fs p (.file t) }, ⟨true, false, [], []⟩)
  | .listTests => (w, ⟨true, false, [], w.tests⟩)
  | .test c _ => (w, ⟨!(w.failing.contains c), false, [], []⟩)
  | .tagged t => (w, ⟨true, w.tags.contains t, [], []⟩)
  | .tag t _ => ({ w with tags := t :: w.tags }, ⟨true, false, [], []⟩)
  | .changelog => (w, ⟨true, false, c!"changes", []⟩)

/-- Digests that agree in front, and their files. -/
def texts : Texts := ⟨fun v => c!"0123abcd" ++ joinWith c!"," v, fun v h => h ++ joinWith c!"," v⟩

def settings : Settings := ⟨c!"~/packages", c!"/shared", c!"/home/me", []⟩

def pkg : Pkg := ⟨c!"foo", some c!"1.0", []⟩

def src : Source := { dir := [c!"src"], loaded := some pkg }

def start : World := { fs := [([], .dir), ([c!"src"], .dir), ([c!"src", c!"package.py"], .file c!"name = 'foo'"),
  ([c!"src", c!"foo.py"], .file c!"x = 1")] }

def sharedFile : Path := [c!"shared", c!"foo", c!"1.0", c!"package.py"]

/-- A release that succeeds. -/
example : Good src pkg ∧
    ((release machine texts settings { mode := .release } src none start).2.map (·.success)) = some true ∧
    mget (release machine texts settings { mode := .release } src none start).1.w.fs sharedFile = some (.file c!"name = 'foo'") ∧
    (release machine texts settings { mode := .release } src none start).1.w.tags = [c!"foo-1.0"] := by
  refine ⟨⟨Or.inl rfl, rfl, by decide, by decide⟩, ?_⟩
  decide +kernel

/-- The directory of a local release, from the home directory. -/
example : installPath .local settings pkg = [c!"home", c!"me", c!"packages", c!"foo", c!"1.0"] := by decide +kernel

end ManagerExamples

open ManagerExamples in
/-- A repository with changes does not stop the release: the package is built and installed, though the result says that it
failed. -/
theorem C158_dirty_false :
    ¬ ∀ (m : Machine World) (w : World), (∃ x, (Act.validate, x) ∈ (release m texts settings { mode := .release } src none w).1.log ∧ x.ok = false) →
      ∀ x ∈ (release m texts settings { mode := .release } src none w).1.log, files x.1 = false := by
  intro h
  have := h machine { start with clean := false } ⟨⟨false, false, [], []⟩, by decide +kernel, rfl⟩
    (.mkdirs [c!"shared", c!"foo", c!"1.0"], ⟨true, false, [], []⟩) (by decide +kernel)
  revert this
  decide

open ManagerExamples in
/-- What is written down of the repository is looked up again after tagging.  Where tagging makes a commit (Mercurial), the
commit named is not the one that was there when the release began. -/
theorem C158_metadata_false :
    ¬ ∀ (m : Machine World) (w : World) (x : Answer) (l : Log) (p : Path) (text : Str) (y : Answer),
      (release m texts settings { mode := .release } src none w).1.log = (Act.validate, ⟨true, false, [], []⟩) :: (Act.metadata, x) :: l →
      x.ok = true → (Act.write p text, y) ∈ l → text = x.text := by
  intro h
  have := h (fun a w => match a with
      | .metadata => (w, ⟨true, false, if w.tags.isEmpty then c!"cafe" else c!"beef", []⟩)
      | a => machine a w) start ⟨true, false, c!"cafe", []⟩ _ [c!"shared", c!"foo", c!"1.0", c!"vcs_metadata.json"] c!"beef"
    ⟨true, false, [], []⟩ rfl rfl (by decide +kernel)
  revert this
  decide

open ManagerExamples in
/-- A package whose tests fail is tagged and installed. -/
theorem C158_tests_false :
    ¬ ∀ (m : Machine World) (w : World) (c : Str) (d : Path) (x : Answer),
      (Act.test c d, x) ∈ (release m texts settings { mode := .release } src none w).1.log → x.ok = false →
      ∀ t msg y, (Act.tag t msg, y) ∉ (release m texts settings { mode := .release } src none w).1.log := by
  intro h
  exact h machine { start with tests := [c!"run"], failing := [c!"run"] } c!"run" [c!"shared", c!"foo", c!"1.0"]
    ⟨false, false, [], []⟩ (by decide +kernel) rfl c!"foo-1.0" c!"Release foo-1.0" ⟨true, false, [], []⟩ (by decide +kernel)

open ManagerExamples in
/-- A dry run says that it succeeds whatever the repository looks like, and although the release fails. -/
theorem C158_dry_false :
    ((release machine texts settings { mode := .dryRun } src none { start with clean := false }).2.map (·.success)) = some true ∧
    ((release machine texts settings { mode := .release } src none { start with clean := false }).2.map (·.success)) = some false := by
  decide +kernel

open ManagerExamples in
/-- A version that is released already is released again: what is there is written over, and the result says that it
succeeded, though the tag stays where it is. -/
theorem C159_again_false :
    let w : World := { start with fs := start.fs ++ [([c!"shared"], .dir), ([c!"shared", c!"foo"], .dir),
      ([c!"shared", c!"foo", c!"1.0"], .dir), (sharedFile, .file c!"old")], tags := [c!"foo-1.0"] }
    ((release machine texts settings { mode := .release } src none w).2.map (·.success)) = some true ∧
    mget w.fs sharedFile = some (.file c!"old") ∧
    mget (release machine texts settings { mode := .release } src none w).1.w.fs sharedFile = some (.file c!"name = 'foo'") ∧
    (release machine texts settings { mode := .release } src none w).1.w.tags = w.tags := by
  decide +kernel

open ManagerExamples in
/-- Only the definition is installed: the other files of the package are not. -/
theorem C159_payload_false :
    ((release machine texts settings { mode := .release } src none start).2.map (·.success)) = some true ∧
    mget start.fs [c!"src", c!"foo.py"] = some (.file c!"x = 1") ∧
    mget (release machine texts settings { mode := .release } src none start).1.w.fs
      [c!"shared", c!"foo", c!"1.0", c!"foo.py"] = none := by
  decide +kernel

open ManagerExamples in
/-- Two variants whose digests agree in their first eight digits share one directory: the second takes the place of the
first. -/
theorem C159_variants_false :
    let s := { src with loaded := some { pkg with variants := [[c!"a"], [c!"b"]] } }
    ((release machine texts settings { mode := .release } s none start).2.map (·.success)) = some true ∧
    texts.digest [c!"a"] ≠ texts.digest [c!"b"] ∧
    mget (release machine texts settings { mode := .release } s none start).1.w.fs
      [c!"shared", c!"foo", c!"1.0", c!"0123abcd", c!"variant.json"] = some (.file c!"0123abcdb") := by
  decide +kernel

open ManagerExamples in
/-- A release from the directory that it installs to empties the definition of the package. -/
theorem C159_self_false :
    let w : World := { start with fs := [([], .dir), ([c!"shared"], .dir), ([c!"shared", c!"foo"], .dir),
      ([c!"shared", c!"foo", c!"1.0"], .dir), (sharedFile, .file c!"name = 'foo'")] }
    let s := { src with dir := [c!"shared", c!"foo", c!"1.0"] }
    ((release machine texts settings { mode := .release } s none w).2.map (·.success)) = some true ∧
    mget (release machine texts settings { mode := .release } s none w).1.w.fs sharedFile = some (.file []) := by
  decide +kernel

/-- If the directory for releases is the one that it is without settings, releases go to the directory for local packages. -/
theorem C159_default_false (c : Settings) (p : Pkg) (h : c.releasePath = c!"~/.rez/packages/int") :
    installPath .release c p = installPath .local c p := by
  unfold installPath
  dsimp only
  rw [if_neg (by simp [h])]

/-- The home directory of another user is not looked up: it is taken for a directory next to one's own. -/
theorem C159_user_false : expandHome c!"/home/me" c!"~you/packages" = c!"/home/meyou/packages" := by decide

end Rez.Props
