/-!
# Block registry, plugin loader and the cache of block definitions

core/include/gnuradio-4.0/BlockRegistry.hpp, core/include/gnuradio-4.0/PluginLoader.hpp,
core/include/gnuradio-4.0/Plugin.hpp, core/src/PluginLoader.cpp.
A block type is identified with its type name, which is what the code does.
-/
namespace Verif.Plug

abbrev Name := String

/-! ## maps -/

/-- `map.find(key)`. -/
def find {ν : Type} (m : List (Name × ν)) (k : Name) : Option ν := (m.find? fun e => e.1 == k).map Prod.snd

/-- `map.insert_or_assign(key, value)`, and assignment to `map[key]`. -/
def assign {ν : Type} (m : List (Name × ν)) (k : Name) (v : ν) : List (Name × ν) :=
  match m with
  | [] => [(k, v)]
  | e :: m => if e.1 == k then (k, v) :: m else e :: assign m k v

/-- `map.emplace(key, value)` and `map.insert`: an entry that is there stays. -/
def emplace {ν : Type} (m : List (Name × ν)) (k : Name) (v : ν) : List (Name × ν) :=
  if (find m k).isSome then m else m ++ [(k, v)]

/-! ## the registry -/

/-- `TTypeHandler` (BlockRegistry.hpp:53-56): the factory is that of the type. -/
structure Handler where
  alias : Name
  type : Name
deriving DecidableEq

/-- `GeneralRegistry` (BlockRegistry.hpp:43-58). -/
abbrev Registry := List (Name × Handler)

/-- The name that goes into the registry for an alias (BlockRegistry.hpp:78-89); `portable` is
`makePortableTypeName`. -/
def fullAlias (portable : Name → Name) (alias params : Name) : Name :=
  match alias.toList with
  | [] => ""
  | c :: r =>
    if c = '=' then String.ofList r
    else if params = "" then portable alias
    else portable (alias ++ "<" ++ params ++ ">")

/-- `insert<TBlock>(alias)` (BlockRegistry.hpp:76-104) with the name for the alias; the result says whether
either entry was new.  The second entry is assigned twice, the second time it is never new. -/
def Registry.insert (m : Registry) (type full : Name) : Registry × Bool :=
  let fresh := (find m type).isNone
  let m := assign m type ⟨full, type⟩
  if full ≠ "" then
    let m := assign m full ⟨"", type⟩
    let aliasFresh := (find m full).isNone
    (assign m full ⟨"", type⟩, fresh || aliasFresh)
  else (m, fresh)

/-- `create` (BlockRegistry.hpp:115-121): the type of the block made. -/
def Registry.create (m : Registry) (name : Name) : Option Name := (find m name).map Handler.type

/-- `keys` (BlockRegistry.hpp:123-126). -/
def Registry.keys (m : Registry) : List Name := m.map Prod.fst

/-- `contains` (BlockRegistry.hpp:128). -/
def Registry.contains (m : Registry) (name : Name) : Bool := (find m name).isSome

/-- `typeName` (BlockRegistry.hpp:130-137) of a block of the given type. -/
def Registry.typeName (m : Registry) (type : Name) : Name :=
  match find m type with
  | some h => if h.alias = "" then type else h.alias
  | none => type

/-- `merge` (BlockRegistry.hpp:139-145). -/
def Registry.merge (m other : Registry) : Registry := other.foldl (fun m e => emplace m e.1 e.2) m

/-! ## the loader: looking up -/

/-- A block definition from a file (PluginLoader.hpp:122-125): how many blocks its outermost graph has, and the
types, in order, that have to be instantiated for it, those in nested graphs included.  Connections and
parameters, which can make loading fail too, are left out. -/
structure Def where
  blocks : Nat
  inner : List Name
deriving DecidableEq

/-- The members of `PluginLoader` (PluginLoader.hpp:385-395) that decide which block is made; a plugin is the
registry it brings along (Plugin.hpp:36-55). -/
structure Loader where
  registry : Registry
  plugins : List (Name × Registry)
  defs : List (Name × Def)

/-- What is made: a block of a built-in type, of a type of a plugin, or what a definition describes. -/
inductive Made where
  | builtin (type : Name)
  | plugin (type : Name)
  | defined (name : Name)
deriving DecidableEq

/-- What a request can give: a block, no block, or recursion without end. -/
inductive Ans where
  | made (m : Made)
  | none
  | endless
deriving DecidableEq

/-- The loop over the blocks of a graph (Graph_yaml_importer.hpp:95-221): the first that cannot be made ends
it. -/
def each (make : Name → Ans) (ok : Ans) : List Name → Ans
  | [] => ok
  | x :: xs => match make x with
    | .made _ => each make ok xs
    | .none => .none
    | .endless => .endless

/-- `instantiate` (PluginLoader.hpp:614-654) with `createBlock` of a plugin (Plugin.hpp:48) and
`instantiateBlockFromYamlDefinition` (Graph_yaml_importer.hpp:450-473).  The number bounds the depth of the
recursion; the code has no such bound. -/
def Loader.make (l : Loader) : Nat → Name → Ans
  | 0, _ => .endless
  | n + 1, name =>
    match l.registry.create name with
    | some t => .made (.builtin t)
    | none =>
      match find l.plugins name with
      | some r =>
        match r.create name with
        | some t => .made (.plugin t)
        | none => .none
      | none =>
        match find l.defs name with
        | some d => each (l.make n) (if d.blocks = 0 then .none else .made (.defined name)) d.inner
        | none => .none

/-- `std::ranges::unique` on a sorted list: of equal neighbours the first stays. -/
def unique : List Name → List Name
  | [] => []
  | [x] => [x]
  | x :: y :: r => if x = y then unique (y :: r) else x :: unique (y :: r)

/-- `availableBlocks` (PluginLoader.hpp:591-612) with the order of strings given. -/
def Loader.available (le : Name → Name → Bool) (l : Loader) : List Name :=
  unique ((l.plugins.map Prod.fst ++ l.defs.map Prod.fst ++ l.registry.keys).mergeSort le)

/-- `isBlockAvailable` (PluginLoader.hpp:699). -/
def Loader.isAvailable (l : Loader) (name : Name) : Bool := l.registry.contains name || (find l.plugins name).isSome

/-! ## the loader: loading plugins -/

/-- What a plugin file does when it is opened: it fails with a status, or it brings a registry
(PluginLoader.hpp:275-310, 353-374). -/
abbrev Disk := Name → Except String Registry

/-- The members of `PluginLoader` for loading (PluginLoader.hpp:386-391); `opened` records which files were
opened, in order. -/
structure Load where
  loaded : List Name
  failed : List (Name × String)
  plugins : List (Name × Registry)
  opened : List Name

/-- `registerHandler` (PluginLoader.hpp:405-417) for a plugin that works; its schedulers are left out. -/
def Load.register (s : Load) (r : Registry) : Load :=
  { s with plugins := r.keys.foldl (fun m k => emplace m k r) s.plugins }

/-- `loadPluginAsync` (PluginLoader.hpp:458-473) up to the opening of the file: `done` is called at once for a
file that is in the set. -/
def Load.start (s : Load) (file : Name) : Load × Option (Except String Unit) :=
  if file ∈ s.loaded then (s, some (.ok ()))
  else ({ s with loaded := file :: s.loaded, opened := s.opened ++ [file] }, none)

/-- The callback of the opening (PluginLoader.hpp:473-486), with the argument given to `done`. -/
def Load.finish (d : Disk) (s : Load) (file : Name) : Load × Except String Unit :=
  match d file with
  | .error e => ({ s with failed := assign s.failed file e }, .error e)
  | .ok r => (s.register r, .ok ())

/-- `loadPluginAsync` (PluginLoader.hpp:458-487) where opening is synchronous, and `loadPluginFileSync`
(PluginLoader.hpp:419-426) but for the result. -/
def Load.load (d : Disk) (s : Load) (file : Name) : Load × Except String Unit :=
  match s.start file with
  | (s, some r) => (s, r)
  | (s, none) => s.finish d file

/-- The counters of `loadPluginsAsync` (PluginLoader.hpp:562-570): loads that are still to report, the first
error, and the calls of `done`. -/
structure Many where
  remaining : Nat
  error : Option String
  calls : List (Except String Unit)

/-- The callback given to every load (PluginLoader.hpp:573-587). -/
def Many.report (m : Many) (r : Except String Unit) : Many :=
  let m := match r, m.error with
    | .error e, none => { m with error := some e }
    | _, _ => m
  let m := { m with remaining := m.remaining - 1 }
  if m.remaining + 1 = 1 then
    { m with calls := m.calls ++ [match m.error with | some e => .error e | none => .ok ()] }
  else m

/-- The loop of `loadPluginsAsync(paths, done, false)` (PluginLoader.hpp:572-588) where opening is
asynchronous: every load is started; the files whose opening is under way are returned. -/
def Load.startAll (s : Load) (m : Many) : List Name → Load × Many × List Name
  | [] => (s, m, [])
  | f :: fs =>
    match s.start f with
    | (s, some r) => Load.startAll s (m.report r) fs
    | (s, none) =>
      let q := Load.startAll s m fs
      (q.1, q.2.1, f :: q.2.2)

/-- The callbacks, in the order in which the openings end. -/
def Load.finishAll (d : Disk) (s : Load) (m : Many) : List Name → Load × Many
  | [] => (s, m)
  | f :: fs =>
    let q := s.finish d f
    Load.finishAll d q.1 (m.report q.2) fs

/-- The counters before the loop (PluginLoader.hpp:568-570). -/
def Many.init (n : Nat) : Many := ⟨n, none, []⟩

/-- `loadPluginsAsync(paths, done, false)` (PluginLoader.hpp:517-589) where opening is synchronous: the calls of
`done`. -/
def Load.loadAll (d : Disk) (s : Load) (files : List Name) : Load × List (Except String Unit) :=
  if files = [] then (s, [.ok ()])
  else
    let p := files.foldl (fun p f => ((p.1.load d f).1, p.2.report (p.1.load d f).2)) (s, Many.init files.length)
    (p.1, p.2.calls)

/-- `loadPluginsAsync(paths, done, true)` (PluginLoader.hpp:537-558) from an index on, with the first error so
far. -/
def Load.loadSeq (d : Disk) (s : Load) (error : Option String) : List Name → Load × List (Except String Unit)
  | [] => (s, [match error with | some e => .error e | none => .ok ()])
  | f :: fs =>
    let q := s.load d f
    Load.loadSeq d q.1 (match q.2, error with | .error e, none => some e | _, _ => error) fs

/-! ## the cache of definitions -/

/-- A file in the cache: its content and when it was last written. -/
structure Cached where
  content : List UInt8
  time : Nat
deriving DecidableEq

/-- How writing the cache file ends (PluginLoader.hpp:201-203); nothing is checked after the file is open. -/
inductive Write where
  /-- everything is written -/
  | full
  /-- the file cannot be opened -/
  | refused
  /-- only so many bytes fit -/
  | short (n : Nat)
  /-- the process dies with so many bytes written -/
  | crash (n : Nat)

/-- Reading the source and writing the cache file (PluginLoader.hpp:199-204): `remote` is what the source has, if
it can be read, and `now` the time of writing.  The result is what is parsed then, or nothing when the process
died. -/
def fetch (cache : Option Cached) (remote : Option (List UInt8)) (now : Nat) :
    Write → Option Cached × Option (Option (List UInt8)) :=
  match remote with
  | none => fun _ => (cache, some none)
  | some b => fun
    | .full => (some ⟨b, now⟩, some (some b))
    | .refused => (cache, some (some b))
    | .short n => (some ⟨b.take n, now⟩, some (some b))
    | .crash n => (some ⟨b.take n, now⟩, none)

/-- Loading one definition when there is a cache directory (PluginLoader.hpp:193-205).  `modified` is the time
in the index, if it can be read.  Reading a cache file that exists is taken to succeed. -/
def loadDef (cache : Option Cached) (modified : Option Nat) (remote : Option (List UInt8)) (now : Nat)
    (w : Write) : Option Cached × Option (Option (List UInt8)) :=
  match modified, cache with
  | some m, some c => if m ≤ c.time then (cache, some (some c.content)) else fetch cache remote now w
  | _, _ => fetch cache remote now w

/-! ## plugin directories -/

/-- The loop that cuts `GNURADIO4_PLUGIN_DIRECTORIES` (core/src/PluginLoader.cpp:17-30); the first argument
bounds the turns. -/
def directories : Nat → List Char → List (List Char)
  | 0, _ => []
  | n + 1, s =>
    if s = [] then []
    else
      let s := s.dropWhile (· == ':')
      let d := s.takeWhile (· != ':')
      let rest := s.dropWhile (· != ':')
      if s = [] then directories n rest else d :: directories n rest

/-! ## sequences of calls -/

/-- Registering one after the other, from a registry. -/
def regs (m : Registry) (rs : List (Name × Name)) : Registry := rs.foldl (fun m r => (m.insert r.1 r.2).1) m

/-- The state before anything is loaded. -/
def fresh : Load := ⟨[], [], [], []⟩

/-- Loading files one after the other. -/
def loads (d : Disk) (s : Load) (fs : List Name) : Load := fs.foldl (fun s f => (s.load d f).1) s

/-- The results of loading one after the other. -/
def results (d : Disk) (s : Load) : List Name → List (Except String Unit)
  | [] => []
  | f :: fs => (s.load d f).2 :: results d (s.load d f).1 fs

/-- One load of a definition: its time, and how writing the cache file ends. -/
abbrev Step := Nat × Write

/-- Loads of one definition one after the other, with what each gives (nothing when the process died). -/
def history (source : Nat → Option (List UInt8)) (modified : Nat → Option Nat) (c : Option Cached) :
    List Step → List (Option (Option (List UInt8)))
  | [] => []
  | (t, w) :: ss =>
    let r := loadDef c (modified t) (source t) t w
    r.2 :: history source modified r.1 ss

end Verif.Plug
