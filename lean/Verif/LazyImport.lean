import Verif.Base

/-!
# `utils/lazy_imports_utils.py`

Modules are numbers, a dotted module name is the list of its parts.  What `importlib` and modules do is
a parameter: `Py.load t n` is the result of the `t`-th call of `import_module`, of the name `n`; `Py.attr` gives the
attributes of a module.  The two callbacks of a context are one number, and what they print is not
modelled, only that they are called.
-/

namespace Space.LazyImport

abbrev ModName := List String

/-- Python's import system. -/
structure Py where
  load : Nat → ModName → Option Nat
  attr : Nat → String → Option Nat

/-- `LazyModule` (`lazy_imports_utils.py:34-43`). -/
structure LazyModule where
  name : ModName
  mod : Option Nat := none
  fromlist : List String := []
  callbacks : Nat
deriving DecidableEq

/-- `builtins.__import__`: the original, or the one of a context. -/
inductive Importer where
  | original
  | lazy (callbacks : Nat)
deriving DecidableEq

/-- A call of `importlib.import_module` by an object, and whether it succeeded. -/
structure Call where
  obj : Nat
  name : ModName
  result : Option Nat
deriving DecidableEq

/-- Calls of callbacks (`:76-81`, `:82-84`). -/
inductive Report where
  | success (callbacks : Nat) (name : ModName) (mod : Nat)
  | error (callbacks : Nat) (name : ModName)
deriving DecidableEq

/-- Objects, the cache of `from_cache` from arguments to objects (`:45-59`), and what happened. -/
structure State where
  objs : List LazyModule := []
  cache : List (LazyModule × Nat) := []
  calls : List Call := []
  reports : List Report := []
  importer : Importer := .original
deriving DecidableEq

/-- `LazyModule.from_cache` (`:45-59`): arguments are those of the object as it is made. -/
def fromCache (k : LazyModule) (σ : State) : Nat × State :=
  match σ.cache.find? (fun e => e.1 = k) with
  | some e => (e.2, σ)
  | none => (σ.objs.length, { σ with objs := σ.objs ++ [k], cache := σ.cache ++ [(k, σ.objs.length)] })

/-- Results of looking an attribute up. -/
inductive Got where
  | object (i : Nat)
  | value (v : Nat)
  | importError
  | attributeError
deriving DecidableEq

/-- `getattr(self.module, name)`, `:86`. -/
def attrOf (py : Py) (m : Nat) (name : String) : Got :=
  match py.attr m name with
  | some v => .value v
  | none => .attributeError

/-- `LazyModule.__getattr__` (`:61-86`) of object `i`. -/
def getattr (py : Py) (i : Nat) (name : String) (σ : State) : Got × State :=
  match σ.objs[i]? with
  | none => (.attributeError, σ)
  | some o =>
    if name ∈ o.fromlist then
      let r := fromCache ⟨o.name ++ [name], o.mod, o.fromlist, o.callbacks⟩ σ
      (.object r.1, r.2)
    else
      match o.mod with
      | some m => (attrOf py m name, σ)
      | none =>
        match py.load σ.calls.length o.name with
        | none =>
          (.importError, { σ with calls := σ.calls ++ [⟨i, o.name, none⟩],
                                  reports := σ.reports ++ [.error o.callbacks o.name] })
        | some m =>
          (attrOf py m name,
            { σ with objs := σ.objs.set i { o with mod := some m },
                     calls := σ.calls ++ [⟨i, o.name, some m⟩],
                     reports := σ.reports ++ [.success o.callbacks o.name m] })

/-- Import statements: `import x.y`, `from x.y import a, b`, `from .x import a`. -/
inductive Stmt where
  | imp (name : ModName)
  | froms (name : ModName) (names : List String)
  | relative (name : ModName)

/-- Look the names up one after the other, as `from x import a, b` does. -/
def getAll (py : Py) (i : Nat) : List String → State → List Got × State
  | [], σ => ([], σ)
  | n :: ns, σ =>
    let r := getattr py i n σ
    let rs := getAll py i ns r.2
    (r.1 :: rs.1, rs.2)

/-- `_lazy_import` (`:142-175`) as called by a statement, and what the statement binds; a relative import raises. -/
def exec (py : Py) (cb : Nat) : Stmt → State → Option (List Got) × State
  | .relative _, σ => (none, σ)
  | .imp name, σ =>
    let r := fromCache { name := name.take 1, callbacks := cb } σ
    (some [.object r.1], r.2)
  | .froms name names, σ =>
    let r := fromCache { name := name, fromlist := names, callbacks := cb } σ
    let rs := getAll py r.1 names r.2
    (some rs.1, rs.2)

/-- Statements one after the other; what they bind, until one raises. -/
def execAll (py : Py) (cb : Nat) : List Stmt → State → List Got × State
  | [], σ => ([], σ)
  | s :: ss, σ =>
    match exec py cb s σ with
    | (none, σ) => ([], σ)
    | (some b, σ) =>
      let r := execAll py cb ss σ
      (b ++ r.1, r.2)

/-- `with lazy_imports(…):` around import statements (`:90-138`). -/
def withLazy (py : Py) (cb : Nat) (ss : List Stmt) (σ : State) : List Got × State :=
  let r := execAll py cb ss { σ with importer := .lazy cb }
  (r.1, { r.2 with importer := σ.importer })

/-- Attributes looked up later, one after the other. -/
def useAll (py : Py) : List (Nat × String) → State → List Got × State
  | [], σ => ([], σ)
  | (i, n) :: us, σ =>
    let r := getattr py i n σ
    let rs := useAll py us r.2
    (r.1 :: rs.1, rs.2)

end Space.LazyImport
