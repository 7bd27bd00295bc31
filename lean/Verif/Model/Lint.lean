import Verif.Lib.Text
/-!
Model of the lint manager: `/repo/libs/workspace/src/lint/mod.rs` and the lint configuration
`/repo/libs/common/src/config/project/lint.rs`.

* A runner is the function from configuration and target to the codes it reports; project, processed text, data and the
  `Any` downcast are part of that function. `T` is the type of targets, `C` that of codes.
* A `HashMap` is a partial function; the codes of a report are a list in the order they are pushed.
* Option values (`toml::Value`) are texts.
-/
namespace Verif.Lints

/-- `codespan_reporting::diagnostic::Severity`. -/
inductive Severity
  | bug | error | warning | note | help
  deriving DecidableEq, Repr

/-- The number `codespan_reporting` compares severities by. -/
def Severity.rank : Severity → Nat
  | .bug => 5 | .error => 4 | .warning => 3 | .note => 2 | .help => 1

/-- `config/project/lint.rs:41-46`. -/
structure Config where
  enabled : Bool
  severity : Severity
  options : Text → Option Text

/-- `config/project/lint.rs:107-113`. -/
structure Override where
  enabled : Option Bool
  severity : Option Severity
  options : Text → Option Text

/-- `config/project/lint.rs:132-142`, `LintConfigOverride::apply`. -/
def Override.apply (o : Override) (c : Config) : Config where
  enabled := o.enabled.getD c.enabled
  severity := o.severity.getD c.severity
  options k := match o.options k with
    | some v => some v
    | none => c.options k

/-- `config/project/lint.rs:179-185`, what a project file says about a lint. -/
inductive ConfigFile
  | enabled (b : Bool)
  | severity (s : Severity)
  | full (o : Override)

/-- `config/project/lint.rs:193-209`. -/
def ConfigFile.override : ConfigFile → Override
  | .enabled b => ⟨some b, none, fun _ => none⟩
  | .severity s => ⟨none, some s, fun _ => none⟩
  | .full o => o

/-- `lint/mod.rs:10-25`, the trait `Lint`. -/
structure Lint (T C : Type) where
  ident : Text
  default : Config
  minimum : Severity
  runners : List (Config → T → List C)

/-- `lint/mod.rs:112`, a group: its lints and its runner. -/
structure Group (T C : Type) where
  lints : List (Lint T C)
  runner : (Text → Option Config) → T → List C

/-- `lint/mod.rs:110-114`. -/
structure Manager (T C : Type) where
  lints : List (Lint T C)
  groups : List (Group T C)
  configs : Text → Option Override

/-- `lint/mod.rs:118-124`. -/
def Manager.new {T C : Type} (configs : Text → Option Override) : Manager T C := ⟨[], [], configs⟩

/-- The messages of `InvalidLintConfig`, `lint/mod.rs:170-192`. -/
inductive LErr
  | exists_ (ident : Text) | severity (ident : Text) | disabled (ident : Text)
  deriving DecidableEq, Repr

/-- The errors for a lint with an override, `lint/mod.rs:173-192`. -/
def overrideErrors {T C : Type} (l : Lint T C) (o : Override) : List LErr :=
  let c := o.apply l.default
  (if c.severity.rank < l.minimum.rank then [.severity l.ident] else []) ++
    (if c.enabled = false ∧ l.minimum = .error then [.disabled l.ident] else [])

/-- The errors for one lint, `lint/mod.rs:167-193`. -/
def lintErrors {T C : Type} (m : Manager T C) (l : Lint T C) : List LErr :=
  (if m.lints.any (fun x => x.ident = l.ident) then [.exists_ l.ident] else []) ++
    match m.configs l.ident with
    | some o => overrideErrors l o
    | none => []

/-- `lint/mod.rs:164-200`, `check`. -/
def Manager.check {T C : Type} (m : Manager T C) (ls : List (Lint T C)) : List LErr := ls.flatMap (lintErrors m)

/-- `lint/mod.rs:140-146`, `extend`; `push` (130-135) is `extend` by one lint. -/
def Manager.extend {T C : Type} (m : Manager T C) (ls : List (Lint T C)) : Except (List LErr) (Manager T C) :=
  if m.check ls = [] then .ok { m with lints := m.lints ++ ls } else .error (m.check ls)

/-- `lint/mod.rs:152-160`, `push_group`. -/
def Manager.pushGroup {T C : Type} (m : Manager T C) (ls : List (Lint T C))
    (runner : (Text → Option Config) → T → List C) : Except (List LErr) (Manager T C) :=
  if m.check ls = [] then .ok { m with groups := m.groups ++ [⟨ls, runner⟩] } else .error (m.check ls)

/-- The configuration a lint runs with, `lint/mod.rs:211-215` and `227-231`. -/
def Manager.config {T C : Type} (m : Manager T C) (l : Lint T C) : Config :=
  match m.configs l.ident with
  | some o => o.apply l.default
  | none => l.default

/-- The codes of one lint, `lint/mod.rs:210-223`. -/
def Manager.runLint {T C : Type} (m : Manager T C) (t : T) (l : Lint T C) : List C :=
  if (m.config l).enabled then l.runners.flatMap fun r => r (m.config l) t else []

/-- The configurations a group gets, `lint/mod.rs:225-235`. -/
def Manager.groupConfigs {T C : Type} (m : Manager T C) : List (Lint T C) → (Text → Option Config) → Text → Option Config
  | [], acc => acc
  | l :: ls, acc =>
    m.groupConfigs ls (if (m.config l).enabled then fun k => if k = l.ident then some (m.config l) else acc k else acc)

/-- The codes of one group, `lint/mod.rs:224-240`. The map of configurations is empty if no lint is enabled. -/
def Manager.runGroup {T C : Type} (m : Manager T C) (t : T) (g : Group T C) : List C :=
  if g.lints.any fun l => (m.config l).enabled then g.runner (m.groupConfigs g.lints fun _ => none) t else []

/-- `lint/mod.rs:202-242`, `run`. -/
def Manager.run {T C : Type} (m : Manager T C) (t : T) : List C :=
  m.lints.flatMap (m.runLint t) ++ m.groups.flatMap (m.runGroup t)

end Verif.Lints
