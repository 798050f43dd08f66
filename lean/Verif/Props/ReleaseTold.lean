import Verif.Props.ReleaseManager
import Verif.Props.ReleaseCommand
/-!
# What a release tells
-/
namespace Rez.Props
open Rez Rez.Files Rez.ReleaseManager

/-- What the result says of the repository is what the repository has said, when asked with success. -/
def Told (log : ReleaseManager.Log) (r : Result) : Prop :=
  (∀ x, r.metadata = some x → ∃ a : ReleaseManager.Answer, (Act.metadata, a) ∈ log ∧ a.ok = true ∧ a.text = x) ∧
  ∀ x, r.changelog = some x → ∃ a : ReleaseManager.Answer, (Act.changelog, a) ∈ log ∧ a.ok = true ∧ a.text = x

namespace ToldLemmas
variable {W : Type}

theorem mono {a b : ReleaseManager.Log} {r : Result} (h : Told a r) : Told (a ++ b) r :=
  ⟨fun x hx => let ⟨y, hy⟩ := h.1 x hx; ⟨y, by simp [hy.1], hy.2⟩, fun x hx => let ⟨y, hy⟩ := h.2 x hx; ⟨y, by simp [hy.1], hy.2⟩⟩

theorem ask' (m : ReleaseManager.Machine W) (a : Act) {s : ReleaseManager.St W} {r : Result} (h : Told s.log r) :
    Told (ReleaseManager.ask m a s).1.log r := mono h

theorem congr {l : ReleaseManager.Log} {r r' : Result} (h : Told l r) (h1 : r'.metadata = r.metadata) (h2 : r'.changelog = r.changelog) :
    Told l r' := ⟨fun x hx => h.1 x (h1 ▸ hx), fun x hx => h.2 x (h2 ▸ hx)⟩

theorem variants (m : ReleaseManager.Machine W) (t : Texts) (src : Source) (path : Path) (l : List (List Str)) :
    ∀ (s : ReleaseManager.St W) (r : Result), Told s.log r →
      Told (buildVariants m t src path l s r).1.log (buildVariants m t src path l s r).2 := by
  induction l with
  | nil => intro s r h; exact h
  | cons v l ih =>
    intro s r h
    refine ih _ _ ?_
    unfold buildVariant
    dsimp only
    split
    · exact congr (ask' m _ h) rfl rfl
    · split
      · exact ask' m _ (ask' m _ (ask' m _ h))
      · exact ask' m _ (ask' m _ h)

theorem each (m : ReleaseManager.Machine W) (path : Path) (l : List Str) : ∀ (i : Nat) (s : ReleaseManager.St W) (r : Result),
    Told s.log r → Told (runEach m path i l s r).1.log (runEach m path i l s r).2 := by
  induction l with
  | nil => intro i s r h; exact h
  | cons c l ih =>
    intro i s r h
    refine ih _ _ _ ?_
    split
    · exact ask' m _ h
    · exact congr (ask' m _ h) rfl rfl

theorem finish_told (m : ReleaseManager.Machine W) (g : Manager) (src : Source) (p : ReleaseManager.Pkg) (message : Option Str) (path : Path)
    (vcs : Bool) (s : ReleaseManager.St W) (r : Result) (h : Told s.log r) :
    ∀ r', (finish m g src p message path vcs s r).2 = some r' → Told (finish m g src p message path vcs s r).1.log r' := by
  intro r' hr
  unfold finish at hr ⊢
  dsimp only at hr ⊢
  generalize ha : (if g.skipTests = true then (s, r) else runTests m src path s r) = a at hr ⊢
  have h1 : Told a.1.log a.2 := by
    rw [← ha]
    split
    · exact h
    · unfold runTests
      split
      · exact each m path _ _ _ _ (ask' m _ h)
      · exact h
  generalize hb : (if vcs = true then ReleaseManager.createTag m p message a.1 a.2 else a) = b at hr ⊢
  have h2 : Told b.1.log b.2 := by
    rw [← hb]
    split
    · unfold ReleaseManager.createTag
      dsimp only
      split
      · exact ask' m _ h1
      · split
        · exact ask' m _ (ask' m _ h1)
        · exact congr (ask' m _ (ask' m _ h1)) rfl rfl
    · exact h1
  generalize hc : (if vcs = true then makeChangelog m b.1 b.2 else b) = c at hr ⊢
  have h3 : Told c.1.log c.2 := by
    rw [← hc]
    split
    · unfold makeChangelog
      dsimp only
      have hk := ask' m Act.changelog h2
      cases hok : (ReleaseManager.ask m .changelog b.1).2.ok with
      | false => exact hk
      | true =>
        refine ⟨hk.1, ?_⟩
        intro x hx
        exact ⟨_, by simp [ReleaseManager.ask], hok, Option.some.inj hx⟩
    · exact h2
  generalize hd : writeMetadata m path vcs c.1 c.2 = d at hr ⊢
  have h4 : Told d.1.log d.2 := by
    rw [← hd]
    unfold writeMetadata
    dsimp only
    split
    · have hk := ask' m Act.metadata h3
      cases hok : (ReleaseManager.ask m .metadata c.1).2.ok with
      | false => exact hk
      | true =>
        rw [if_pos rfl]
        have hk2 := ask' m (.write (path ++ [c!"vcs_metadata.json"]) (ReleaseManager.ask m .metadata c.1).2.text) hk
        dsimp only
        split
        · refine ⟨?_, hk2.2⟩
          intro x hx
          exact ⟨_, by simp [ReleaseManager.ask], hok, Option.some.inj hx⟩
        · exact hk2
    · exact h3
  unfold installDefinition at hr ⊢
  split at hr
  · rename_i hf
    rw [if_pos hf]
    simp only [Option.map_some, Option.some.injEq] at hr
    subst hr
    exact congr h4 rfl rfl
  · rename_i hf
    rw [if_neg hf]
    dsimp only at hr ⊢
    generalize (if src.py = true then c!"package.py" else c!"package.yaml") = file at hr ⊢
    cases hok : (ReleaseManager.ask m (.copy (src.dir ++ [file]) (path ++ [file])) d.1).2.ok with
    | false => rw [hok] at hr; cases hr
    | true =>
      rw [hok] at hr
      simp only [if_true, Option.map_some, Option.some.injEq] at hr
      subst hr
      exact congr (ask' m _ h4) rfl rfl

end ToldLemmas

/-- **C158**: whatever the result of a release says of the revision and of the changes is what the repository has answered
during this release, when it was asked with success. -/
theorem C158_told {W : Type} (m : ReleaseManager.Machine W) (t : Texts) (c : Settings) (g : Manager) (src : Source) (message : Option Str)
    (w : W) (r : Result) (h : (ReleaseManager.release m t c g src message w).2 = some r) :
    Told (ReleaseManager.release m t c g src message w).1.log r := by
  have h0 : (loadPackage src).2.metadata = none ∧ (loadPackage src).2.changelog = none := by
    unfold loadPackage
    repeat' split
    all_goals exact ⟨rfl, rfl⟩
  unfold ReleaseManager.release at h ⊢
  dsimp only at h ⊢
  split at h
  · rename_i he
    rw [if_pos he]
    cases h
    exact ⟨fun x hx => by rw [h0.1] at hx; (cases hx), fun x hx => by rw [h0.2] at hx; (cases hx)⟩
  · rename_i he
    rw [if_neg he]
    generalize hr1 : ({ (loadPackage src).2 with path := installPath g.mode c (loadPackage src).1 } : Result) = r1 at h ⊢
    have hs : Told ([] : ReleaseManager.Log) r1 := by
      subst hr1
      exact ⟨fun x hx => by dsimp only at hx; rw [h0.1] at hx; (cases hx), fun x hx => by dsimp only at hx; rw [h0.2] at hx; (cases hx)⟩
    generalize hv : (if g.skipVcs = true then ((⟨w, []⟩ : ReleaseManager.St W), r1, false) else validateVcs m src ⟨w, []⟩ r1) = v at h ⊢
    have h1 : Told v.1.log v.2.1 := by
      rw [← hv]
      split
      · exact hs
      · unfold validateVcs
        split
        · dsimp only
          have hk := ToldLemmas.ask' m Act.validate (s := ⟨w, []⟩) hs
          split
          · exact ToldLemmas.congr hk rfl rfl
          · have hk2 := ToldLemmas.ask' m Act.metadata hk
            cases hok : (ReleaseManager.ask m .metadata (ReleaseManager.ask m .validate (⟨w, []⟩ : ReleaseManager.St W)).1).2.ok with
            | false => exact hk2
            | true =>
              refine ⟨?_, hk2.2⟩
              intro x hx
              exact ⟨_, by simp [ReleaseManager.ask], hok, Option.some.inj hx⟩
        · exact hs
    split at h
    · rename_i hd
      rw [if_pos hd]
      cases h
      exact ToldLemmas.congr h1 rfl rfl
    · rename_i hd
      rw [if_neg hd]
      generalize hb : (if g.skipBuild = true then (v.1, some v.2.1) else buildPackage m t src (loadPackage src).1
        (installPath g.mode c (loadPackage src).1) v.1 v.2.1) = b at h ⊢
      have h2 : ∀ r2, b.2 = some r2 → Told b.1.log r2 := by
        intro r2 hr2
        subst hb
        split at hr2
        · rename_i hk
          rw [if_pos hk]
          cases hr2
          exact h1
        · rename_i hk
          rw [if_neg hk]
          unfold buildPackage at hr2 ⊢
          dsimp only at hr2 ⊢
          split at hr2
          · cases hr2
          · rename_i h3
            rw [if_neg h3]
            split at hr2
            · rename_i h4
              rw [if_pos h4]
              cases hr2
              exact ToldLemmas.variants m t src _ _ _ _ (ToldLemmas.ask' m _ h1)
            · rename_i h4
              rw [if_neg h4]
              split at hr2
              · rename_i h5
                rw [if_pos h5]
                cases hr2
                exact ToldLemmas.ask' m _ (ToldLemmas.ask' m _ h1)
              · rename_i h5
                rw [if_neg h5]
                cases hr2
                exact ToldLemmas.ask' m _ h1
      cases hbb : b.2 with
      | none => rw [hbb] at h; cases h
      | some r2 =>
        rw [hbb] at h
        exact ToldLemmas.finish_told m g src _ message _ _ _ _ (h2 r2 hbb) r h

/-- **C157**: the program is `git` if it is asked for; if none is asked for it is `git` if and only if the directory has a
`.git`, whatever else it has.  With any other the release is refused and nothing is done; with `git` it is not refused for
that. -/
theorem C157_vcs {W : Type} (m : Release.Machine W) (a : Release.Args) (d : Release.Dir) (w : W) (p : Release.Pkg) (hp : d.package = some p) :
    ((a.vcs = some c!"git" ∨ (a.vcs = none ∧ d.git = true)) → (Release.release m a d w).2 ≠ some .vcs) ∧
    (¬ (a.vcs = some c!"git" ∨ (a.vcs = none ∧ d.git = true)) → Release.release m a d w = (⟨w, []⟩, some .vcs)) := by
  have key : a.vcs.getD (Release.detectVcs d) = c!"git" ↔ (a.vcs = some c!"git" ∨ (a.vcs = none ∧ d.git = true)) := by
    cases hv : a.vcs with
    | some v => simp
    | none =>
      unfold Release.detectVcs
      rcases d with ⟨_, g, s, hg⟩
      cases g <;> cases s <;> cases hg <;> simp
  constructor
  · intro h
    unfold Release.release
    rw [hp]
    dsimp only
    rw [if_neg (by simpa using key.2 h)]
    have hnext : ∀ (r : Release.St W × Option Release.Problem) k, r.2 ≠ some .vcs → (∀ s, (k s).2 ≠ some .vcs) →
        (Release.next r k).2 ≠ some .vcs := by
      intro r k h1 h2
      unfold Release.next
      split
      · exact h2 _
      · rename_i e he
        rw [he] at h1
        exact h1
    apply hnext
    · split
      · simp
      · unfold Release.validate
        dsimp only
        repeat' split
        all_goals simp
    · intro s
      apply hnext
      · split
        · simp
        · unfold Release.checkTag
          dsimp only
          split <;> simp
      · intro s
        split
        · simp
        · unfold Release.perform
          split
          · simp
          · rename_i l _
            apply hnext
            · clear * -
              induction l generalizing s with
              | nil => simp [Release.buildEach]
              | cons i l ih =>
                unfold Release.buildEach
                dsimp only
                split
                · simp
                · split
                  · simp
                  · exact ih _
            · intro s
              unfold Release.createTag
              dsimp only
              repeat' split
              all_goals simp
  · intro h
    unfold Release.release
    rw [hp]
    dsimp only
    rw [if_pos (by simpa using fun e => h (key.1 e))]

/-- A release in which the result does tell a revision, and a directory with both `.git` and `.svn`. -/
example : (∃ r, (ReleaseManager.release (fun a (w : Unit) => match a with
      | .metadata => (w, ⟨true, false, c!"cafe", []⟩)
      | _ => (w, ⟨true, false, [], []⟩)) ManagerExamples.texts ManagerExamples.settings { mode := .dryRun } ManagerExamples.src none ()).2 =
        some r ∧ r.metadata = some c!"cafe") ∧
    Release.detectVcs { package := none, git := true, svn := true } = c!"git" := ⟨⟨_, rfl, rfl⟩, rfl⟩

end Rez.Props
