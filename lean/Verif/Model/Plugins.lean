import Verif.Model.Lists
import Verif.Model.Search
import Verif.Model.Context
/-!
# Plugins and the hooks that come with the program: `rez-next-python/src/plugins_bindings.rs`,
`rez-next-release-hook/src/{builtin,event,hook}.rs`, `rez-next-python/src/release_hook_bindings.rs`

Parameters: `to_lowercase`, reading a file, `serde_json`, `toml`, the text that `{:?}` makes of a list of texts, and the order of hash sets.
Left out: the arguments of the hooks that no built-in hook looks at; `__repr__` and `__str__`; headers and time limit of the web hook, which
nothing reads, are one value `rest`.
-/
namespace Rez.Plugins
open Rez

/-! ## The plugin manager -/

/-- plugins_bindings.rs:40-49 `PyPlugin`. -/
structure Plugin where
  name : Str
  type : Str
  description : Str
  version : Str := c!"1.0.0"
deriving DecidableEq

/-- plugins_bindings.rs:165-182: shells. -/
def shells : List Plugin :=
  [(c!"bash", c!"Unix Bash shell"), (c!"zsh", c!"Unix Zsh shell"), (c!"fish", c!"Fish shell"), (c!"sh", c!"POSIX sh shell"),
   (c!"cmd", c!"Windows CMD shell"), (c!"powershell", c!"Windows PowerShell"),
   (c!"pwsh", c!"PowerShell Core (cross-platform)"), (c!"csh", c!"C shell"), (c!"tcsh", c!"TENEX C shell")].map fun p =>
    { name := p.1, type := c!"shell", description := p.2 }

/-- plugins_bindings.rs:184-201: build systems. -/
def buildSystems : List Plugin :=
  [(c!"cmake", c!"CMake build system"), (c!"make", c!"GNU Make build system"),
   (c!"python_rezbuild", c!"Python rezbuild.py build system"), (c!"python", c!"Python setuptools/pyproject build system"),
   (c!"cargo", c!"Rust Cargo build system"), (c!"nodejs", c!"Node.js npm/yarn build system"),
   (c!"custom_script", c!"Custom build script (build.sh/build.bat)")].map fun p =>
    { name := p.1, type := c!"build_system", description := p.2 }

/-- plugins_bindings.rs:203-215: release hooks. -/
def releaseHooks : List Plugin :=
  [(c!"emailer", c!"Send email notification on release"), (c!"command", c!"Run custom command on release")].map fun p =>
    { name := p.1, type := c!"release_hook", description := p.2 }

/-- plugins_bindings.rs:217-226: repositories. -/
def repositories : List Plugin :=
  [(c!"filesystem", c!"Local filesystem package repository")].map fun p =>
    { name := p.1, type := c!"package_repository", description := p.2 }

/-- plugins_bindings.rs:76-78 `PyRezPluginManager`. -/
abbrev Manager := List Plugin

/-- plugins_bindings.rs:84-91, 163-227 `new`, `register_builtin_plugins`. -/
def Manager.new : Manager := shells ++ buildSystems ++ releaseHooks ++ repositories

/-- plugins_bindings.rs:99-105 `get_plugins`. -/
def Manager.ofType (m : Manager) (type : Str) : List Plugin := m.filter fun p => p.type = type

/-- plugins_bindings.rs:109-114 `get_plugin`. -/
def Manager.find (m : Manager) (type name : Str) : Option Plugin := List.find? (fun p => p.type = type && p.name = name) m

/-- plugins_bindings.rs:117-123 `plugin_types`; `iter` is the order of the hash set. -/
def Manager.types (iter : List Str → List Str) (m : Manager) : List Str :=
  Search.sortStr (iter ((List.map Plugin.type m).foldl sadd []))

/-- plugins_bindings.rs:126-128 `register_plugin`. -/
def Manager.register (m : Manager) (p : Plugin) : Manager := m ++ [p]

/-- plugins_bindings.rs:131-135 `has_plugin`. -/
def Manager.has (m : Manager) (type name : Str) : Bool := List.any m fun p => p.type = type && p.name = name

/-- plugins_bindings.rs:139-144 `get_shell_types`. -/
def Manager.shellTypes (m : Manager) : List Str := (m.ofType c!"shell").map Plugin.name

/-- plugins_bindings.rs:148-153 `get_build_system_types`. -/
def Manager.buildTypes (m : Manager) : List Str := (m.ofType c!"build_system").map Plugin.name

/-- plugins_bindings.rs:157-159 `count`. -/
def Manager.count (m : Manager) : Nat := List.length m

/-- plugins_bindings.rs:255-258 `is_shell_supported`. -/
def shellSupported (lower : Str → Str) (s : Str) : Bool := Manager.new.has c!"shell" (lower s)

/-! ## Release hooks -/

/-- event.rs:7-17 `ReleaseHookEvent`. -/
inductive Event where
  | preBuild
  | preRelease
  | postRelease
deriving DecidableEq

/-- event.rs:21-27 `label`; also 48-52, `Display`. -/
def Event.label : Event → Str
  | .preBuild => c!"pre-build"
  | .preRelease => c!"pre-release"
  | .postRelease => c!"post-release"

/-- event.rs:30-36 `noun`. -/
def Event.noun : Event → Str
  | .preBuild => c!"build"
  | .preRelease => c!"release"
  | .postRelease => c!"release"

/-- event.rs:39-45 `func_name`. -/
def Event.func : Event → Str
  | .preBuild => c!"pre_build"
  | .preRelease => c!"pre_release"
  | .postRelease => c!"post_release"

/-- builtin.rs:10-17 `EmailHookConfig`. -/
structure Email where
  server : Str
  port : Nat
  sender : Str
  receivers : List Str
  tls : Bool
deriving DecidableEq

/-- builtin.rs:19-29 `default`. -/
def Email.default : Email := ⟨c!"localhost", 25, c!"rez@localhost", [], false⟩

/-- builtin.rs:32-38 `WebHookConfig`; `rest` stands for headers and time limit. -/
structure Web where
  url : Str
  method : Str
  rest : Nat
deriving DecidableEq

/-- builtin.rs:40-49 `default`. -/
def Web.default : Web := ⟨[], c!"POST", 0⟩

/-- The four hooks: builtin.rs:55, 70, 127-129, 214-216. -/
inductive Hook where
  | noop
  | logging
  | email (c : Email)
  | web (c : Web)
deriving DecidableEq

/-- What the hooks ask of outside: the text of a file that is there and can be read, and how texts are understood. -/
structure Outside where
  file : Str → Option Str
  emailJson : Str → Option Email
  emailToml : Str → Option Email
  webJson : Str → Option Web
  webToml : Str → Option Web
  debug : List Str → Str

/-- builtin.rs:194-205, 290-301 `read_config`. -/
def readConfig {C : Type} (file : Str → Option Str) (json toml : Str → Option C) (path : Str) : Option C :=
  match file path with
  | none => none
  | some text => if Context.extension path = some c!"json" then json text else toml text

/-- builtin.rs:136-139 `EmailHook::new`. -/
def newEmail (o : Outside) (path : Str) : Option Hook :=
  some (.email ((readConfig o.file o.emailJson o.emailToml path).getD Email.default))

/-- builtin.rs:223-231 `WebHook::new`. -/
def newWeb (o : Outside) (path : Str) : Option Hook :=
  let c := (readConfig o.file o.webJson o.webToml path).getD Web.default
  if c.url.isEmpty then none else some (.web c)

/-- builtin.rs:307-325 `register_builtin_hooks`, lib.rs `init`. -/
def init (o : Outside) (r : Lists.Registry Hook) : Lists.Registry Hook :=
  (((r.register c!"noop" fun _ => some .noop).register c!"logging" fun _ => some .logging).register c!"email" (newEmail o)).register
    c!"webhook" (newWeb o)

/-- builtin.rs:79-121, 141-189, 233-286, hook.rs:38-80: what a built-in hook writes to the log at an event, and whether the release goes
on. -/
def Hook.call (o : Outside) (h : Hook) (e : Event) : List Str × Bool :=
  match h with
  | .noop => ([], true)
  | .logging => ([c!"ReleaseHook: " ++ e.func ++ c!" called"], true)
  | .email c => ([c!"EmailHook: " ++ e.func ++ c!" - would send email to " ++ o.debug c.receivers], true)
  | .web c => ([c!"WebHook: " ++ e.func ++ c!" - would send " ++ c.method ++ c!" request to " ++ c.url], true)

end Rez.Plugins
