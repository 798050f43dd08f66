import Verif.Spec.PyComplete
/-!
# C250: completion scripts from Python
-/
namespace Rez.Props
open Rez Rez.Source Rez.PyComplete Rez.Spec.PyComplete

namespace PyCompleteLemmas

theorem detect_mem (h : Here) : detectShell h ∈ supported := by
  unfold detectShell
  split
  · split
    · decide
    · split
      · decide
      · split <;> decide
  · decide

theorem names_iff (t : Str) (k : Script) : Names t k ↔
    k = .bash ∧ t.map lowerChar = c!"bash" ∨ k = .zsh ∧ t.map lowerChar = c!"zsh" ∨ k = .fish ∧ t.map lowerChar = c!"fish" ∨
    k = .powershell ∧ (t.map lowerChar = c!"powershell" ∨ t.map lowerChar = c!"pwsh") := by
  unfold Names table
  constructor
  · rintro ⟨ns, path, n, hm, hn, ht⟩
    simp only [List.mem_cons, List.not_mem_nil, or_false, Prod.mk.injEq] at hm
    rcases hm with ⟨rfl, rfl, -⟩ | ⟨rfl, rfl, -⟩ | ⟨rfl, rfl, -⟩ | ⟨rfl, rfl, -⟩ <;>
      simp only [List.mem_cons, List.not_mem_nil, or_false] at hn <;> subst ht <;> tauto
  · rintro (⟨rfl, ht⟩ | ⟨rfl, ht⟩ | ⟨rfl, ht⟩ | ⟨rfl, ht | ht⟩)
    · exact ⟨_, _, _, List.mem_cons_self, by simp, ht⟩
    · exact ⟨_, _, _, List.mem_cons_of_mem _ List.mem_cons_self, by simp, ht⟩
    · exact ⟨_, _, _, List.mem_cons_of_mem _ (List.mem_cons_of_mem _ List.mem_cons_self), by simp, ht⟩
    · exact ⟨_, _, c!"powershell", List.mem_cons_of_mem _ (List.mem_cons_of_mem _ (List.mem_cons_of_mem _ List.mem_cons_self)), by simp, ht⟩
    · exact ⟨_, _, c!"pwsh", List.mem_cons_of_mem _ (List.mem_cons_of_mem _ (List.mem_cons_of_mem _ List.mem_cons_self)), by simp, ht⟩

theorem lower_supported : ∀ s ∈ supported, s.map lowerChar = s := by decide +kernel

/-- Without a shell it is as with the shell found. -/
theorem type_none (h : Here) : shellType h none = shellType h (some (detectShell h)) := by
  show detectShell h = (detectShell h).map lowerChar
  rw [lower_supported _ (detect_mem h)]

theorem script_none (h : Here) : script h none = script h (some (detectShell h)) := by
  unfold script; rw [type_none]

theorem path_none (h : Here) : installPath h none = installPath h (some (detectShell h)) := by
  unfold installPath; rw [type_none]

/-- A process with this shell. -/
def withShell (s : Str) : Here := ⟨[(c!"SHELL", some s)], c!"/tmp", 1, fun _ => true, fun _ => true, fun p => some p⟩

end PyCompleteLemmas
open PyCompleteLemmas

/-- C250: for a name of a shell, in upper or lower case, the script is that of the shell.  "ps1" is one more name; all other texts
are errors. -/
theorem C250_script (h : Here) (t : Str) (k : Script) :
    script h (some t) = some k ↔ Names t k ∨ k = .powershell ∧ t.map lowerChar = c!"ps1" := by
  have hs : shellType h (some t) = t.map lowerChar := rfl
  rw [names_iff]
  unfold script
  rw [hs]
  generalize t.map lowerChar = s
  by_cases h1 : s = c!"bash"
  · subst h1; cases k <;> simp
  · by_cases h2 : s = c!"zsh"
    · subst h2; cases k <;> simp
    · by_cases h3 : s = c!"fish"
      · subst h3; cases k <;> simp
      · simp only [h1, h2, h3, if_false, and_false, false_or]
        by_cases h4 : s = c!"powershell" ∨ s = c!"pwsh" ∨ s = c!"ps1"
        · rw [if_pos h4, Option.some.injEq, eq_comm, ← and_or_left, or_assoc]
          exact ⟨fun hk => ⟨hk, h4⟩, And.left⟩
        · rw [if_neg h4]
          simp only [reduceCtorEq, false_iff]
          tauto

example : script (withShell c!"/bin/zsh") (some c!"PwSh") = some .powershell := by
  rw [C250_script]
  exact Or.inl ((names_iff _ _).mpr (by decide +kernel))

/-- C250: the path is given for the names of shells and is that of the shell; all other texts are errors. -/
theorem C250_path (h : Here) (t path : Str) :
    installPath h (some t) = some path ↔ ∃ k, Names t k ∧ PathOf k path := by
  have hs : shellType h (some t) = t.map lowerChar := rfl
  have hp : ∀ k, PathOf k path ↔
      k = .bash ∧ path = c!"~/.bash_completion.d/rez-next" ∨ k = .zsh ∧ path = c!"~/.zsh/completions/_rez-next" ∨
      k = .fish ∧ path = c!"~/.config/fish/completions/rez-next.fish" ∨
      k = .powershell ∧ path = c!"~/.config/powershell/Microsoft.PowerShell_profile.ps1" := by
    intro k
    unfold PathOf table
    simp only [List.mem_cons, List.not_mem_nil, or_false, Prod.mk.injEq]
    constructor
    · rintro ⟨ns, h⟩
      tauto
    · rintro (h | h | h | h)
      · exact ⟨_, Or.inl ⟨h.1, rfl, h.2⟩⟩
      · exact ⟨_, Or.inr (Or.inl ⟨h.1, rfl, h.2⟩)⟩
      · exact ⟨_, Or.inr (Or.inr (Or.inl ⟨h.1, rfl, h.2⟩))⟩
      · exact ⟨_, Or.inr (Or.inr (Or.inr ⟨h.1, rfl, h.2⟩))⟩
  simp only [names_iff, hp]
  unfold installPath
  rw [hs]
  generalize t.map lowerChar = s
  have hex : ∀ P : Script → Prop, (∃ k, P k) ↔ P .bash ∨ P .zsh ∨ P .fish ∨ P .powershell := by
    intro P
    constructor
    · rintro ⟨k, hk⟩
      cases k <;> tauto
    · rintro (h | h | h | h) <;> exact ⟨_, h⟩
  rw [hex]
  simp only [reduceCtorEq, true_and, false_and, false_or, or_false]
  by_cases h1 : s = c!"bash"
  · subst h1
    rw [if_pos rfl, Option.some.injEq, eq_comm]
    simp
  · rw [if_neg h1]
    by_cases h2 : s = c!"zsh"
    · subst h2
      rw [if_pos rfl, Option.some.injEq, eq_comm]
      simp
    · rw [if_neg h2]
      by_cases h3 : s = c!"fish"
      · subst h3
        rw [if_pos rfl, Option.some.injEq, eq_comm]
        simp
      · rw [if_neg h3]
        by_cases h4 : s = c!"powershell" ∨ s = c!"pwsh"
        · rw [if_pos h4, Option.some.injEq, eq_comm]
          tauto
        · rw [if_neg h4]
          simp only [reduceCtorEq, false_iff]
          tauto

example : installPath (withShell c!"/bin/zsh") (some c!"FISH") = some c!"~/.config/fish/completions/rez-next.fish" := by
  rw [C250_path]
  exact ⟨.fish, (names_iff _ _).mpr (by decide +kernel), _, List.mem_cons_of_mem _ (List.mem_cons_of_mem _ List.mem_cons_self)⟩

/-- C250: the shells that are listed are the four shells, each under one of its names, and nothing else is listed. -/
theorem C250_supported : (∀ k, ∃ n ∈ supported, Names n k ∧ ∀ m ∈ supported, Names m k → m = n) ∧ ∀ n ∈ supported, ∃ k, Names n k := by
  simp only [names_iff]
  refine ⟨fun k => ?_, fun n hn => ?_⟩
  swap
  · simp only [supported, List.mem_cons, List.not_mem_nil, or_false] at hn
    rcases hn with rfl | rfl | rfl | rfl
    · exact ⟨.bash, by decide +kernel⟩
    · exact ⟨.zsh, by decide +kernel⟩
    · exact ⟨.fish, by decide +kernel⟩
    · exact ⟨.powershell, by decide +kernel⟩
  cases k
  · exact ⟨c!"bash", by decide +kernel, by decide +kernel, by decide +kernel⟩
  · exact ⟨c!"zsh", by decide +kernel, by decide +kernel, by decide +kernel⟩
  · exact ⟨c!"fish", by decide +kernel, by decide +kernel, by decide +kernel⟩
  · exact ⟨c!"powershell", by decide +kernel, by decide +kernel, by decide +kernel⟩

/-- C250: if no shell is given, there always are a script and a path, both of the same shell, whatever the environment is; the shell
is zsh, fish or PowerShell only if `SHELL` says so. -/
theorem C250_default (h : Here) :
    ∃ k path, script h none = some k ∧ installPath h none = some path ∧ PathOf k path ∧
      (k ≠ .bash → ∃ v, getVar h c!"SHELL" = some v ∧
        (k = .zsh ∧ containsStr (v.map lowerChar) c!"zsh" = true ∨ k = .fish ∧ containsStr (v.map lowerChar) c!"fish" = true ∨
         k = .powershell ∧ (containsStr (v.map lowerChar) c!"pwsh" = true ∨ containsStr (v.map lowerChar) c!"powershell" = true))) := by
  have hsome : ∀ n ∈ supported, ∃ k, Names n k ∧ ∃ path, PathOf k path := by
    intro n hn
    simp only [supported, List.mem_cons, List.not_mem_nil, or_false] at hn
    rcases hn with rfl | rfl | rfl | rfl
    · exact ⟨.bash, (names_iff _ _).mpr (by decide +kernel), _, _, List.mem_cons_self⟩
    · exact ⟨.zsh, (names_iff _ _).mpr (by decide +kernel), _, _, List.mem_cons_of_mem _ List.mem_cons_self⟩
    · exact ⟨.fish, (names_iff _ _).mpr (by decide +kernel), _, _, List.mem_cons_of_mem _ (List.mem_cons_of_mem _ List.mem_cons_self)⟩
    · exact ⟨.powershell, (names_iff _ _).mpr (by decide +kernel), _, _,
        List.mem_cons_of_mem _ (List.mem_cons_of_mem _ (List.mem_cons_of_mem _ List.mem_cons_self))⟩
  obtain ⟨k, hk, path, hp⟩ := hsome _ (detect_mem h)
  refine ⟨k, path, ?_, ?_, hp, ?_⟩
  · rw [script_none, C250_script]; exact Or.inl hk
  · rw [path_none, C250_path]; exact ⟨k, hk, hp⟩
  · intro hb
    rw [names_iff] at hk
    rw [lower_supported _ (detect_mem h)] at hk
    unfold detectShell at hk
    cases hv : getVar h c!"SHELL" with
    | none =>
      rw [hv] at hk
      simp at hk
      exact absurd hk hb
    | some v =>
      refine ⟨v, rfl, ?_⟩
      rw [hv] at hk
      simp only at hk
      by_cases h1 : containsStr (lower v) c!"zsh" = true
      · rw [if_pos h1] at hk
        simp at hk
        exact Or.inl ⟨hk, h1⟩
      · rw [if_neg h1] at hk
        by_cases h2 : containsStr (lower v) c!"fish" = true
        · rw [if_pos h2] at hk
          simp at hk
          exact Or.inr (Or.inl ⟨hk, h2⟩)
        · rw [if_neg h2] at hk
          by_cases h3 : (containsStr (lower v) c!"pwsh" || containsStr (lower v) c!"powershell") = true
          · rw [if_pos h3] at hk
            simp at hk
            exact Or.inr (Or.inr ⟨hk, (Bool.or_eq_true _ _).mp h3⟩)
          · rw [if_neg h3] at hk
            simp at hk
            exact absurd hk hb

example : script (withShell c!"/usr/bin/Fish") none = some .fish := by decide +kernel

/-- C250: where there is a path there is a script, and it is for the shell that an activation script of that name is written for. -/
theorem C250_agree (h : Here) (t : Str) (k : Script) (hk : script h (some t) = some k) :
    shellOf t = activation k := by
  rw [C250_script, names_iff] at hk
  unfold shellOf lower
  generalize t.map lowerChar = s at hk
  rcases hk with (⟨rfl, rfl⟩ | ⟨rfl, rfl⟩ | ⟨rfl, rfl⟩ | ⟨rfl, rfl | rfl⟩) | ⟨rfl, rfl⟩ <;> decide +kernel

/-- C250 is false for "ps1": there is a script but no path. -/
theorem C250_ps1_false (h : Here) : script h (some c!"ps1") = some .powershell ∧ installPath h (some c!"ps1") = none :=
  ⟨rfl, rfl⟩

/-- C250 is false for the shell in use: with tcsh the script is that of bash. -/
theorem C250_other_false : script (withShell c!"/bin/tcsh") none = some .bash ∧ script (withShell c!"/bin/tcsh") (some c!"tcsh") = none := by
  decide +kernel

end Rez.Props
