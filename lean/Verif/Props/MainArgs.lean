import Verif.Spec.MainArgs
/-!
# C248: what the executable runs
-/
namespace Rez.Props
open Rez Rez.MainArgs Rez.Spec.MainArgs

variable {E B O : Type}

namespace MainArgsLemmas

theorem groups_ne (l : List Str) : groups l ≠ [] := by
  cases l with
  | nil => simp [groups]
  | cons a l =>
    rw [groups]
    split
    · simp
    · split <;> simp

theorem groups_plain {l : List Str} (h : c!"--" ∉ l) : groups l = [l] := by
  induction l with
  | nil => rfl
  | cons a l ih =>
    simp only [List.mem_cons, not_or] at h
    rw [groups, if_neg (Ne.symm h.1), ih h.2]

theorem groups_split {a : List Str} (h : c!"--" ∉ a) (b : List Str) : groups (a ++ c!"--" :: b) = a :: groups b := by
  induction a with
  | nil => rw [List.nil_append, groups, if_pos rfl]
  | cons x a ih =>
    simp only [List.mem_cons, not_or] at h
    rw [List.cons_append, groups, if_neg (Ne.symm h.1), ih h.2]

theorem tells (succeeds : Ran E B O → Bool) (r : Ran E B O) : Tells succeeds (codeOf succeeds r) r := by
  unfold Tells codeOf
  cases succeeds r <;> simp

theorem main_cons (parse : List Str → Parsed E B O) (succeeds : Ran E B O → Bool) (prog cmd : Str) (rest : List Str) :
    main parse succeeds (prog :: cmd :: rest) = if cmd = c!"env" ∨ cmd = c!"build" then grouped parse succeeds prog (cmd :: rest)
      else standard parse succeeds (prog :: cmd :: rest) := rfl

end MainArgsLemmas
open MainArgsLemmas

/-- **C248.** Without `--`, every command gets all arguments as the parser reads them, and the exit code tells whether it succeeded. -/
theorem C248_plain (parse : List Str → Parsed E B O) (succeeds : Ran E B O → Bool) (args : List Str) (hd : c!"--" ∉ args.tail)
    (c : Cli E B O) (hp : parse args = .cli c) : Tells succeeds (main parse succeeds args) (.cli c) := by
  have hs : Tells succeeds (standard parse succeeds args) (.cli c) := by
    unfold standard
    rw [hp]
    exact tells succeeds _
  match args, hd, hp, hs with
  | [], _, _, hs => exact hs
  | [a], _, _, hs => exact hs
  | prog :: cmd :: rest, hd, hp, hs =>
    rw [main_cons]
    split
    · unfold grouped
      rw [groups_plain (l := cmd :: rest) hd]
      simp only [hp]
      have : choose c [] = .cli c := by
        unfold choose
        split <;> first | rfl | simp_all
      rw [this]
      exact tells succeeds _
    · exact hs

/-- **C248.** With `--` after `env`, what comes before is parsed, and what comes after, up to the next `--`, is run in the environment
argument by argument. -/
theorem C248_env (parse : List Str → Parsed E B O) (succeeds : Ran E B O → Bool) (prog : Str) (first extra rest : List Str)
    (h1 : c!"--" ∉ first) (h2 : c!"--" ∉ extra) (hr : rest = [] ∨ rest.head? = some c!"--") (hne : extra ≠ [])
    (info : Bool) (e : E) (hp : parse (prog :: c!"env" :: first) = .cli ⟨info, some (.env e)⟩) :
    Tells succeeds (main parse succeeds (prog :: c!"env" :: (first ++ c!"--" :: (extra ++ rest)))) (.env e extra) := by
  have hg : ∃ gs, groups (c!"env" :: (first ++ c!"--" :: (extra ++ rest))) = (c!"env" :: first) :: extra :: gs := by
    rw [← List.cons_append, groups_split (by simp [h1])]
    rcases hr with rfl | hr
    · rw [List.append_nil, groups_plain h2]; exact ⟨_, rfl⟩
    · cases rest with
      | nil => simp at hr
      | cons x rest =>
        simp only [List.head?_cons, Option.some.injEq] at hr
        subst hr
        rw [groups_split h2]
        exact ⟨_, rfl⟩
  obtain ⟨gs, hg⟩ := hg
  rw [main_cons, if_pos (.inl rfl)]
  unfold grouped
  rw [hg]
  simp only [hp]
  have : choose (B := B) (O := O) ⟨info, some (.env e)⟩ (extra :: gs) = .env e extra := by
    unfold choose
    cases extra with
    | nil => exact absurd rfl hne
    | cons x xs => rfl
  rw [this]
  exact tells succeeds _

/-- **C248.** With `--` after `build`, what comes after is given to the build, joined by blanks, unless arguments for the build were given
before. -/
theorem C248_build (parse : List Str → Parsed E B O) (succeeds : Ran E B O → Bool) (prog : Str) (first extra : List Str)
    (h1 : c!"--" ∉ first) (h2 : c!"--" ∉ extra) (hne : extra ≠ []) (info : Bool) (given : Option Str) (b : B)
    (hp : parse (prog :: c!"build" :: first) = .cli ⟨info, some (.build given b)⟩) :
    ∃ t, Tells succeeds (main parse succeeds (prog :: c!"build" :: (first ++ c!"--" :: extra))) (.cli ⟨info, some (.build (some t) b)⟩) ∧
      (given = none → t = joinWith c!" " extra) ∧ ∀ x, given = some x → t = x := by
  refine ⟨given.getD (joinWith c!" " extra), ?_, ?_, ?_⟩
  · rw [main_cons, if_pos (.inr rfl)]
    unfold grouped
    rw [← List.cons_append, groups_split (by simp [h1]), groups_plain h2]
    simp only [hp]
    have : choose (E := E) (O := O) ⟨info, some (.build given b)⟩ [extra] =
        .cli ⟨info, some (.build (some (given.getD (joinWith c!" " extra))) b)⟩ := by
      unfold choose
      cases extra with
      | nil => exact absurd rfl hne
      | cons x xs => rfl
    rw [this]
    exact tells succeeds _
  · rintro rfl; rfl
  · rintro x rfl; rfl

/-- **C248.** Nothing is run and the exit code is not 0 if the arguments are wrong; with help nothing is run and it is 0. -/
theorem C248_usage (parse : List Str → Parsed E B O) (succeeds : Ran E B O → Bool) (args : List Str) (hd : c!"--" ∉ args.tail) :
    (parse args = .usage → (main parse succeeds args).1 = .nothing ∧ (main parse succeeds args).2 ≠ 0) ∧
    (parse args = .help → main parse succeeds args = (.nothing, 0)) := by
  match args, hd with
  | [], _ => exact ⟨fun h => by simp [main, standard, h], fun h => by simp [main, standard, h]⟩
  | [a], _ => exact ⟨fun h => by simp [main, standard, h], fun h => by simp [main, standard, h]⟩
  | prog :: cmd :: rest, hd =>
    have hg : groups (cmd :: rest) = [cmd :: rest] := groups_plain hd
    rw [main_cons]
    split
    · unfold grouped
      rw [hg]
      exact ⟨fun h => by simp [h], fun h => by simp [h]⟩
    · exact ⟨fun h => by simp [standard, h], fun h => by simp [standard, h]⟩

/-- **C248.** A double dash with nothing after it is as if it were not there. -/
theorem C248_empty (parse : List Str → Parsed E B O) (succeeds : Ran E B O → Bool) (prog cmd : Str) (first : List Str)
    (hc : cmd = c!"env" ∨ cmd = c!"build") (h1 : c!"--" ∉ first) :
    main parse succeeds (prog :: cmd :: (first ++ [c!"--"])) = main parse succeeds (prog :: cmd :: first) := by
  have hm : c!"--" ∉ cmd :: first := by
    rcases hc with rfl | rfl <;> simp [h1]
  have hg : groups (cmd :: (first ++ [c!"--"])) = [cmd :: first, []] := by
    rw [← List.cons_append, groups_split hm]; rfl
  rw [main_cons, main_cons, if_pos hc, if_pos hc]
  unfold grouped
  rw [hg, groups_plain hm]
  simp only
  cases parse (prog :: cmd :: first) with
  | help => rfl
  | usage => rfl
  | cli c =>
    have : choose c [[]] = choose c [] := by
      unfold choose
      rcases c with ⟨i, _ | (_ | _ | _)⟩ <;> rfl
    simp only [this]

/-- **C248.** Wrong arguments before a double dash run nothing, whatever comes after it, and so does asking for help there. -/
theorem C248_before (parse : List Str → Parsed E B O) (succeeds : Ran E B O → Bool) (prog cmd : Str) (first extra : List Str)
    (hc : cmd = c!"env" ∨ cmd = c!"build") (h1 : c!"--" ∉ first) :
    (parse (prog :: cmd :: first) = .usage → (main parse succeeds (prog :: cmd :: (first ++ c!"--" :: extra))).1 = .nothing ∧
      (main parse succeeds (prog :: cmd :: (first ++ c!"--" :: extra))).2 ≠ 0) ∧
    (parse (prog :: cmd :: first) = .help → main parse succeeds (prog :: cmd :: (first ++ c!"--" :: extra)) = (.nothing, 0)) := by
  have hm : c!"--" ∉ cmd :: first := by
    rcases hc with rfl | rfl <;> simp [h1]
  rw [main_cons, if_pos hc]
  unfold grouped
  rw [← List.cons_append, groups_split hm]
  exact ⟨fun h => by simp [h], fun h => by simp [h]⟩

/-- **C248.** Other commands get their double dashes as they are. -/
theorem C248_others (parse : List Str → Parsed E B O) (succeeds : Ran E B O → Bool) (prog cmd : Str) (rest : List Str)
    (h1 : cmd ≠ c!"env") (h2 : cmd ≠ c!"build") (c : Cli E B O) (hp : parse (prog :: cmd :: rest) = .cli c) :
    Tells succeeds (main parse succeeds (prog :: cmd :: rest)) (.cli c) := by
  rw [main_cons, if_neg (fun h => h.elim h1 h2)]
  unfold standard
  rw [hp]
  exact tells succeeds _

/-- **C248**, that all arguments after `--` reach the program: false after a second `--`. -/
theorem C248_dashes_false (parse : List Str → Parsed E B O) (succeeds : Ran E B O → Bool) (e : E)
    (hp : parse [c!"rez", c!"env", c!"a"] = .cli ⟨false, some (.env e)⟩) :
    (main parse succeeds [c!"rez", c!"env", c!"a", c!"--", c!"git", c!"log", c!"--", c!"file"]).1 = .env e [c!"git", c!"log"] :=
  (C248_env parse succeeds c!"rez" [c!"a"] [c!"git", c!"log"] [c!"--", c!"file"] (by decide) (by decide) (.inr rfl) (by decide) false e hp).1

/-- **C248**, that different arguments reach a build differently: false, a blank in an argument is a boundary. -/
theorem C248_blank_false (parse : List Str → Parsed E B O) (succeeds : Ran E B O → Bool) (b : B)
    (hp : parse [c!"rez", c!"build"] = .cli ⟨false, some (.build none b)⟩) :
    main parse succeeds [c!"rez", c!"build", c!"--", c!"a b"] = main parse succeeds [c!"rez", c!"build", c!"--", c!"a", c!"b"] := by
  have h : ∀ l : List Str, main parse succeeds (c!"rez" :: c!"build" :: l) = grouped parse succeeds c!"rez" (c!"build" :: l) := fun _ => rfl
  rw [h, h]
  have e1 : groups [c!"build", c!"--", c!"a b"] = [[c!"build"], [c!"a b"]] := by decide
  have e2 : groups [c!"build", c!"--", c!"a", c!"b"] = [[c!"build"], [c!"a", c!"b"]] := by decide
  unfold grouped
  rw [e1, e2]
  simp only [hp]
  rfl

/-- **C248**, that wrong arguments give the same exit code for every command: false, `env` and `build` end with 1 and others with 2. -/
theorem C248_code_false (succeeds : Ran E B O → Bool) :
    (main (fun _ => .usage) succeeds [c!"rez", c!"env", c!"--bad"]).2 = 1 ∧
    (main (fun _ => .usage) succeeds [c!"rez", c!"solve", c!"--bad"]).2 = 2 := ⟨rfl, rfl⟩

/-- A parser for the examples. -/
def mainDemo : List Str → Parsed Nat Nat Nat
  | [_, x, y] => if x = c!"env" then .cli ⟨false, some (.env y.length)⟩ else if x = c!"build" then .cli ⟨false, some (.build none 0)⟩ else .usage
  | _ => .usage

example : main mainDemo (fun r => r = .env 1 [c!"ls"]) [c!"rez", c!"env", c!"a", c!"--", c!"ls"] = (.env 1 [c!"ls"], 0) ∧
    main mainDemo (fun _ => false) [c!"rez", c!"build", c!"-i", c!"--", c!"x", c!"y"] = (.cli ⟨false, some (.build (some c!"x y") 0)⟩, 1) := by
  decide

example : main mainDemo (fun r => r = .cli ⟨false, some (.env 1)⟩) [c!"rez", c!"env", c!"a", c!"--"] = (.cli ⟨false, some (.env 1)⟩, 0) := by
  decide

end Rez.Props
