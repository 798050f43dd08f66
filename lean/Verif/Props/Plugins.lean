import Verif.Spec.Plugins
import Verif.Props.Search
/-!
# C237, C238: plugins and built-in hooks
-/
namespace Rez.Props
open Rez Rez.Plugins Rez.Spec.Plugins

namespace PluginsLemmas

theorem foldl_register (ps : List Plugin) : ∀ m : Manager, ps.foldl Manager.register m = List.append m ps := by
  induction ps with
  | nil => intro m; simp
  | cons p ps ih => intro m; simp [ih, Manager.register]

theorem after_eq (ps : List Plugin) : after ps = List.append Manager.new ps := foldl_register ps _

theorem mem_texts (l s : List Str) (x : Str) : x ∈ l.foldl sadd s ↔ x ∈ s ∨ x ∈ l := by
  induction l generalizing s with
  | nil => simp
  | cons a l ih => rw [List.foldl_cons, ih, mem_sadd, List.mem_cons]; tauto

theorem nodup_texts (l s : List Str) (h : s.Nodup) : (l.foldl sadd s).Nodup := by
  induction l generalizing s with
  | nil => exact h
  | cons a l ih => exact ih _ (nodup_sadd h a)

end PluginsLemmas
open PluginsLemmas

/-! ## C237 -/

/-- C237: the plugins of a type are the built-in ones and then the registered ones, in order; their number is 19 more than
were registered. -/
theorem C237_plugins (ps : List Plugin) (t : Str) :
    (after ps).ofType t = Manager.new.ofType t ++ ps.filter (fun p => p.type = t) ∧
    (after ps).shellTypes = shellNames ++ (ps.filter fun p => p.type = c!"shell").map Plugin.name ∧
    (after ps).buildTypes = buildNames ++ (ps.filter fun p => p.type = c!"build_system").map Plugin.name ∧
    (after ps).count = 19 + ps.length := by
  have h : ∀ t, (after ps).ofType t = Manager.new.ofType t ++ ps.filter (fun p => p.type = t) := fun t => by
    rw [after_eq]; exact List.filter_append ..
  refine ⟨h t, ?_, ?_, ?_⟩
  · rw [Manager.shellTypes, h, List.map_append]; congr 1
  · rw [Manager.buildTypes, h, List.map_append]; congr 1
  · rw [after_eq]; exact List.length_append

/-- C237: a plugin is found exactly if one of that type and name is there; it is the one that came first, so a built-in plugin
cannot be replaced. -/
theorem C237_find (ps : List Plugin) (t n : Str) :
    (∀ p, (after ps).find t n = some p ↔ ∃ before rest, Manager.new ++ ps = before ++ p :: rest ∧ p.type = t ∧ p.name = n ∧
      ∀ q ∈ before, ¬ (q.type = t ∧ q.name = n)) ∧
    ((after ps).has t n = true ↔ ∃ p ∈ Manager.new ++ ps, p.type = t ∧ p.name = n) ∧
    ((after ps).has t n = true ↔ (after ps).find t n ≠ none) ∧
    (∀ p, Manager.new.find t n = some p → (after ps).find t n = some p) := by
  have e : after ps = Manager.new ++ ps := after_eq ps
  refine ⟨fun p => ?_, ?_, ?_, fun p h => ?_⟩
  · rw [e, Manager.find, List.find?_eq_some_iff_append]
    constructor
    · rintro ⟨h1, as, bs, h2, h3⟩
      simp only [Bool.and_eq_true, decide_eq_true_eq] at h1
      refine ⟨as, bs, h2, h1.1, h1.2, fun q hq => ?_⟩
      have := h3 q hq
      simp only [Bool.not_eq_true', Bool.and_eq_false_iff, decide_eq_false_iff_not] at this
      tauto
    · rintro ⟨as, bs, h2, h3, h4, h5⟩
      refine ⟨by simp [h3, h4], as, bs, h2, fun q hq => ?_⟩
      have := h5 q hq
      simp only [Bool.not_eq_true', Bool.and_eq_false_iff, decide_eq_false_iff_not]
      tauto
  · rw [e, Manager.has, List.any_eq_true]; simp
  · rw [e, Manager.has, Manager.find, List.any_eq_true, Ne, List.find?_eq_none]; simp
  · rw [e, Manager.find, List.find?_append]
    rw [Manager.find] at h
    rw [h]; rfl

/-- C237: the types are in ascending order, each once, and are the types of the plugins, in whatever order the set gives them. -/
theorem C237_types (ps : List Plugin) (iter : List Str → List Str) (hi : ∀ l, (iter l).Perm l) :
    Ascending ((after ps).types iter) ∧ ∀ t, t ∈ (after ps).types iter ↔ ∃ p ∈ Manager.new ++ ps, p.type = t := by
  have e : after ps = Manager.new ++ ps := after_eq ps
  refine ⟨SearchLemmas.ascending_of (SearchLemmas.sortStr_sorted _) ?_, fun t => ?_⟩
  · rw [Manager.types, (SearchLemmas.sortStr_perm _).nodup_iff, (hi _).nodup_iff]
    exact nodup_texts _ _ List.nodup_nil
  · rw [Manager.types, (SearchLemmas.sortStr_perm _).mem_iff, (hi _).mem_iff, mem_texts, e]
    simp only [List.not_mem_nil, false_or]
    exact List.mem_map

/-- C237: a shell is supported exactly if its name in lower case is one of the nine names. -/
theorem C237_supported (lower : Str → Str) (s : Str) : shellSupported lower s = true ↔ lower s ∈ shellNames := by
  have : ∀ x : Str, Manager.new.has c!"shell" x = true ↔ x ∈ shellNames := by
    intro x
    rw [Manager.has, List.any_eq_true]
    constructor
    · rintro ⟨p, hp, h⟩
      simp only [Bool.and_eq_true, decide_eq_true_eq] at h
      have key : ∀ p ∈ Manager.new, p.type = c!"shell" → p.name ∈ shellNames := by decide +kernel
      exact h.2 ▸ key p hp h.1
    · intro h
      have key : ∀ n ∈ shellNames, ∃ p ∈ Manager.new, (p.type = c!"shell" && p.name = n : Bool) = true := by decide +kernel
      exact key x h
  exact this _

/-- C237: a registered shell is not supported for that, and is not seen by a manager that is asked for later: each call makes
its own. -/
theorem C237_registered_false : ¬ ∀ (lower : Str → Str) (p : Plugin) (s : Str),
    (Manager.new.register p).has c!"shell" (lower s) = shellSupported lower s := by
  intro h
  exact absurd (h id ⟨c!"nu", c!"shell", [], c!"0.1.0"⟩ c!"nu") (by decide +kernel)

example : (after [⟨c!"bash", c!"shell", c!"mine", c!"2"⟩]).find c!"shell" c!"bash" =
    some ⟨c!"bash", c!"shell", c!"Unix Bash shell", c!"1.0.0"⟩ := by decide +kernel
example : (after [⟨c!"p4", c!"release_vcs", c!"Perforce", c!"2"⟩]).has c!"release_vcs" c!"p4" = true := by decide +kernel
example : shellSupported (fun s => s.map lowerChar) c!"Bash" = true := by decide +kernel

/-! ## C238 -/

namespace PluginsLemmas

theorem run_snoc (o : Outside) (steps : List Step) (s : Step) : run o (steps ++ [s]) = (match s with
    | .other n f => (run o steps).register n f
    | .init => Plugins.init o (run o steps)) := by
  rw [run, List.foldl_append]; rfl

theorem get_init (o : Outside) (r : Lists.Registry Hook) (n : Str) : mget (Plugins.init o r) n =
    if n = c!"webhook" then some (newWeb o) else if n = c!"email" then some (newEmail o) else
    if n = c!"logging" then some (fun _ => some .logging) else if n = c!"noop" then some (fun _ => some .noop) else mget r n := by
  simp only [Plugins.init, Lists.Registry.register, mget_mset]

/-- After the built-in hooks were registered, as long as nobody takes one of their names. -/
theorem get_run (o : Outside) (before rest : List Step) (n : Str)
    (h : ∀ s ∈ rest, ∀ f, s ≠ .other n f) (hn : n ∈ hookNames) :
    mget (run o (before ++ .init :: rest)) n = mget (Plugins.init o []) n := by
  induction rest using List.reverseRecOn with
  | nil =>
    rw [run_snoc, get_init, get_init]
    simp only [hookNames, List.mem_cons, List.not_mem_nil, or_false] at hn
    rcases hn with rfl | rfl | rfl | rfl <;> rfl
  | append_singleton rest s ih =>
    have ih := ih fun t ht => h t (List.mem_append_left _ ht)
    rw [← List.cons_append, ← List.append_assoc, run_snoc]
    cases s with
    | other m f =>
      have : n ≠ m := fun e => h (.other m f) (by simp) f (by rw [e])
      show mget (mset _ m f) n = _
      rw [mget_mset, if_neg this, ih]
    | init =>
      rw [get_init, get_init]
      simp only [hookNames, List.mem_cons, List.not_mem_nil, or_false] at hn
      rcases hn with rfl | rfl | rfl | rfl <;> rfl

end PluginsLemmas

/-- C238: once the built-in hooks are registered, whatever was registered before and whatever other names are afterwards: the
hooks `noop`, `logging` and `email` are made for every path; the e-mail hook has the configuration that the file at the path holds, read as JSON exactly if its name ends in `.json` and
as TOML otherwise, and the default one if there is none that can be understood; `webhook` is made exactly if such a
configuration is there and its address is not empty. -/
theorem C238_made (o : Outside) (before rest : List Step) (path : Str)
    (h : ∀ s ∈ rest, ∀ n ∈ hookNames, ∀ f, s ≠ .other n f) :
    let r := run o (before ++ .init :: rest)
    r.create c!"noop" path = some .noop ∧ r.create c!"logging" path = some .logging ∧
    (∃ c, r.create c!"email" path = some (.email c) ∧
      (∀ text, o.file path = some text →
        (Context.extension path = some c!"json" → c = (o.emailJson text).getD Email.default) ∧
        (Context.extension path ≠ some c!"json" → c = (o.emailToml text).getD Email.default)) ∧
      (o.file path = none → c = Email.default)) ∧
    (∀ hook, r.create c!"webhook" path = some hook ↔ ∃ c text, hook = .web c ∧ c.url ≠ [] ∧ o.file path = some text ∧
      (if Context.extension path = some c!"json" then o.webJson text else o.webToml text) = some c) := by
  intro r
  have g : ∀ n ∈ hookNames, mget r n = mget (Plugins.init o []) n := fun n hn =>
    get_run o before rest n (fun s hs f => h s hs n hn f) hn
  refine ⟨?_, ?_, ?_, fun hook => ?_⟩
  · rw [Lists.Registry.create, g _ (by simp [hookNames]), get_init]; rfl
  · rw [Lists.Registry.create, g _ (by simp [hookNames]), get_init]; rfl
  · have e : r.create c!"email" path = newEmail o path := by
      rw [Lists.Registry.create, g _ (by simp [hookNames]), get_init]; rfl
    refine ⟨_, e, fun text ht => ⟨fun hj => ?_, fun hj => ?_⟩, fun hf => ?_⟩
    · rw [readConfig, ht]; simp only [if_pos hj]
    · rw [readConfig, ht]; simp only [if_neg hj]
    · rw [readConfig, hf]; rfl
  · have e : r.create c!"webhook" path = newWeb o path := by
      rw [Lists.Registry.create, g _ (by simp [hookNames]), get_init]; rfl
    rw [e, newWeb, readConfig]
    cases hf : o.file path with
    | none => simp [Web.default]
    | some text =>
      simp only
      cases hc : (if Context.extension path = some c!"json" then o.webJson text else o.webToml text) with
      | none => simp [Web.default, hc]
      | some c =>
        simp only [Option.getD_some]
        by_cases hu : c.url = []
        · simp only [hu, List.isEmpty_nil, if_true]
          constructor
          · intro h; cases h
          · rintro ⟨c', t', _, h2, h3, h4⟩
            injection h3 with h3; subst h3
            rw [hc] at h4; injection h4 with h4; subst h4
            exact absurd hu h2
        · have : c.url.isEmpty = false := by cases hx : c.url <;> simp_all
          rw [this]
          simp only [Bool.false_eq_true, if_false, Option.some.injEq]
          constructor
          · rintro rfl; exact ⟨c, text, rfl, hu, rfl, hc⟩
          · rintro ⟨c', t', h1, _, h3, h4⟩
            subst h3
            rw [hc] at h4; injection h4 with h4; subst h4
            exact h1.symm

/-- C238: the types are the built-in names and the names others used, each once. -/
theorem C238_types (o : Outside) (before rest : List Step) (n : Str) :
    n ∈ (run o (before ++ .init :: rest)).types ↔ n ∈ hookNames ∨ ∃ f, Step.other n f ∈ before ++ rest := by
  have key : ∀ steps : List Step, n ∈ mkeys (run o steps) ↔
      (n ∈ hookNames ∧ Step.init ∈ steps) ∨ ∃ f, Step.other n f ∈ steps := by
    intro steps
    induction steps using List.reverseRecOn with
    | nil => simp [run, mkeys]
    | append_singleton steps s ih =>
      rw [run_snoc]
      cases s with
      | other m f =>
        show n ∈ mkeys (mset _ m f) ↔ _
        rw [mem_mkeys_mset, ih]
        constructor
        · rintro (rfl | ⟨h1, h2⟩ | ⟨g, hg⟩)
          · exact .inr ⟨f, by simp⟩
          · exact .inl ⟨h1, by simp [h2]⟩
          · exact .inr ⟨g, by simp [hg]⟩
        · rintro (⟨h1, h2⟩ | ⟨g, hg⟩)
          · simp at h2; exact .inr (.inl ⟨h1, h2⟩)
          · rcases List.mem_append.1 hg with hg | hg
            · exact .inr (.inr ⟨g, hg⟩)
            · simp at hg; exact .inl hg.1
      | init =>
        simp only [Plugins.init, Lists.Registry.register, mem_mkeys_mset, ih]
        simp only [List.mem_append, List.mem_singleton, reduceCtorEq, or_false, or_true, and_true]
        simp only [hookNames, List.mem_cons, List.not_mem_nil, or_false]
        tauto
  rw [Lists.Registry.types, key]
  simp

/-- C238: no built-in hook stops a release, at no event; `noop` writes nothing, the others one line that names the event. -/
theorem C238_calls (o : Outside) (h : Hook) (e : Event) :
    (h.call o e).2 = true ∧ (h = .noop → (h.call o e).1 = []) ∧
    (h ≠ .noop → ∃ a b, (h.call o e).1 = [a ++ e.func ++ b]) := by
  refine ⟨by cases h <;> rfl, fun hh => by subst hh; rfl, fun hh => ?_⟩
  cases h with
  | noop => exact absurd rfl hh
  | logging => exact ⟨_, _, rfl⟩
  | email c => exact ⟨c!"EmailHook: ", c!" - would send email to " ++ o.debug c.receivers, by simp [Hook.call]⟩
  | web c => exact ⟨c!"WebHook: ", c!" - would send " ++ c.method ++ c!" request to " ++ c.url, by simp [Hook.call]⟩

/-- C238: the line of the web hook ends in the address, the line of the e-mail hook in the receivers. -/
theorem C238_lines (o : Outside) (e : Event) :
    (∀ c, ∃ a b, ((Hook.web c).call o e).1 = [a ++ c.method ++ b ++ c.url]) ∧
    (∀ c, ∃ a, ((Hook.email c).call o e).1 = [a ++ o.debug c.receivers]) :=
  ⟨fun c => ⟨c!"WebHook: " ++ e.func ++ c!" - would send ", c!" request to ", by simp [Hook.call]⟩,
   fun c => ⟨c!"EmailHook: " ++ e.func ++ c!" - would send email to ", by simp [Hook.call]⟩⟩

/-- C238: events are told apart by their labels and by their functions; a label starts with `pre-` or `post-` and ends in the
noun, and the function is the label with `_` for `-`. -/
theorem C238_events (e : Event) :
    (∀ e', e.label = e'.label → e = e') ∧ (∀ e', e.func = e'.func → e = e') ∧
    (e.label = c!"pre-" ++ e.noun ∨ e.label = c!"post-" ++ e.noun) ∧
    e.func = e.label.map fun c => if c = '-' then '_' else c := by
  refine ⟨fun e' h => ?_, fun e' h => ?_, ?_, ?_⟩
  · cases e <;> cases e' <;> first | rfl | exact absurd h (by decide)
  · cases e <;> cases e' <;> first | rfl | exact absurd h (by decide)
  · cases e <;> decide
  · cases e <;> decide

/-- C238: the release hooks that the plugin manager lists are not the ones that can be made: no hook of either of its names is
registered, and no registered one is listed. -/
theorem C238_listed_false (o : Outside) : (∀ p ∈ Manager.new, p.type = c!"release_hook" → ∀ path,
      (run o [.init]).create p.name path = none) ∧
    ∀ n ∈ (run o [.init]).types, Manager.new.has c!"release_hook" n = false := by
  constructor
  · intro p hp ht path
    have key : ∀ p ∈ Manager.new, p.type = c!"release_hook" → p.name ∉ hookNames := by decide +kernel
    have k := key p hp ht
    simp only [hookNames, List.mem_cons, List.not_mem_nil, or_false, not_or] at k
    rw [Lists.Registry.create]
    have : mget (run o [.init]) p.name = none := by
      show mget (Plugins.init o []) p.name = none
      rw [get_init, if_neg k.2.2.2, if_neg k.2.2.1, if_neg k.2.1, if_neg k.1]; rfl
    rw [this]
  · intro n hn
    have : n ∈ hookNames := by
      have := (C238_types o [] [] n).1 hn
      simpa using this
    revert n
    have key : ∀ n ∈ hookNames, Manager.new.has c!"release_hook" n = false := by decide +kernel
    exact fun n _ hn => key n hn

/-- C238: a configuration of the e-mail hook that cannot be understood is not reported: the hook is made, with no receiver. -/
theorem C238_reported_false (o : Outside) (path text : Str) (hf : o.file path = some text) (h1 : o.emailJson text = none)
    (h2 : o.emailToml text = none) : ∃ c, (run o [.init]).create c!"email" path = some (.email c) ∧ c.receivers = [] := by
  obtain ⟨-, -, ⟨c, hc, h, -⟩, -⟩ := C238_made o [] [] path (by simp)
  refine ⟨c, hc, ?_⟩
  by_cases hx : Context.extension path = some c!"json"
  · rw [(h text hf).1 hx, h1]; rfl
  · rw [(h text hf).2 hx, h2]; rfl

namespace PluginsLemmas
/-- A machine with one configuration. -/
def exOut : Outside where
  file p := if p = c!"/etc/hook.json" then some c!"{}" else none
  emailJson t := if t = c!"{}" then some ⟨c!"mail", 587, c!"a@b", [c!"c@d"], true⟩ else none
  emailToml _ := none
  webJson t := if t = c!"{}" then some ⟨c!"http://x", c!"PUT", 1⟩ else none
  webToml _ := none
  debug l := l.flatten
end PluginsLemmas

example : (run exOut [.other c!"slack" (fun _ => none), .init]).create c!"webhook" c!"/etc/hook.json" =
    some (.web ⟨c!"http://x", c!"PUT", 1⟩) := by decide +kernel
example : (run exOut [.init]).create c!"webhook" c!"/etc/other" = none := by decide +kernel

end Rez.Props
