/-
  Model of the attribute namespace of the configuration objects of src/dga/config.py: `update_dict`
  (`self.__dict__.update`), attribute lookup on an instance, `as_dict`, `set`, `set_from_obj`, and the order in which
  `DgaConfig.__init__`, `EliashbergConfig.__init__` and `OpticsConfig.__init__` write defaults and sections.

  A dictionary is the list of its items in insertion order.
-/
import Verif.Config.Model
import Verif.Py

namespace DGA.Cfg

/-- Values found in a YAML configuration and in attributes.  `inst d`: an object that has a `__dict__` (with the items
    `d`); all other constructors have none. -/
inductive Val where
  | null
  | bool (b : Bool)
  | int (i : Int)
  | num (q : Rat)
  | str (s : String)
  | list (l : List Val)
  | dict (d : List (String × Val))
  | inst (d : List (String × Val))

/-- Python `dict` with string keys, items in insertion order -/
abbrev Dict := List (String × Val)

/-- `d[k] = v`: replaces the value in place, or appends a new item -/
def put : Dict → String → Val → Dict
  | [], k, v => [(k, v)]
  | (k', v') :: d, k, v => if k' = k then (k', v) :: d else (k', v') :: put d k v

/-- config.py:70-76 `update_dict` (`self.__dict__.update(kwargs)`): the items are assigned in order; unknown keys are
    stored as well (the check is commented out). -/
def update (d e : Dict) : Dict := e.foldl (fun d p => put d p.1 p.2) d

/-- What attribute lookup needs of a class: the names of its properties (data descriptors) with their getters applied to
    the instance dictionary, and the other class attributes. -/
structure Cls where
  props : List (String × (Dict → Val))
  attrs : Dict

/-- Python attribute lookup `inst.k`: property of the class, then instance dictionary, then class attribute. -/
def getattr (c : Cls) (d : Dict) (k : String) : Option Val :=
  match c.props.lookup k with
  | some f => some (f d)
  | none => (d.lookup k).or (c.attrs.lookup k)

/-- config.py:78-82 `set_from_obj`: for every key of the own dictionary which `obj` has as an attribute the value is taken
    from `obj.__dict__`; `none` is `KeyError` (the attribute of `obj` is a class attribute or property). -/
def setFromObj (self : Dict) (c : Cls) (obj : Dict) : Option Dict :=
  self.foldlM (fun d p =>
    if (getattr c obj p.1).isSome then (obj.lookup p.1).map (put d p.1) else some d) self

mutual
/-- config.py:84-100 `as_dict` of one value: values without `__dict__` are returned unchanged; of an object the attributes
    whose name does not start with an underscore are collected. -/
def asDict : Val → Val
  | .null => .null
  | .bool b => .bool b
  | .int i => .int i
  | .num q => .num q
  | .str s => .str s
  | .list l => .list l
  | .dict d => .dict d
  | .inst d => .dict (asDictItems d)
/-- config.py:89-99 the loop over the attributes; entries of lists are converted one by one. -/
def asDictItems : List (String × Val) → List (String × Val)
  | [] => []
  | (k, v) :: r =>
    if k.startsWith "_" then asDictItems r
    else match v with
      | .list l => (k, .list (asDictList l)) :: asDictItems r
      | .null => (k, .null) :: asDictItems r
      | .bool b => (k, .bool b) :: asDictItems r
      | .int i => (k, .int i) :: asDictItems r
      | .num q => (k, .num q) :: asDictItems r
      | .str s => (k, .str s) :: asDictItems r
      | .dict d => (k, .dict d) :: asDictItems r
      | .inst d => (k, .dict (asDictItems d)) :: asDictItems r
/-- config.py:94-96: the list branch -/
def asDictList : List Val → List Val
  | [] => []
  | v :: r => asDict v :: asDictList r
end

/-- One statement of a constructor that touches the instance dictionary -/
inductive Stmt where
  | assign (k : String) (v : Val)
  | section_ (s : String)

/-- A configuration file: sections by name (`conf_file['name']`, a mapping) -/
abbrev Conf := List (String × Dict)

/-- Executes the statements: `self.k = v` (none of the names is a property of `DgaConfig`) and
    `if s in conf_file: self.update_dict(**conf_file[s])`. -/
def exec (conf : Conf) (p : List Stmt) (d : Dict) : Dict :=
  p.foldl (fun d s => match s with
    | .assign k v => put d k v
    | .section_ s => match conf.lookup s with
      | some e => update d e
      | none => d) d

/-- config.py:515-554 `DgaConfig.__init__` after the sub-configurations have been built (lines 516-524, given by `sub`: the
    instance dictionary with `output_path`, `comm`, `box`, `lattice`, `eliash`, `optics`, `debug`).  The flag
    `do_poly_fitting` is assigned only when the section is present (526-528). -/
def dgaProgram (conf : Conf) : List Stmt :=
  [.assign "n_fit" (.int 4), .assign "o_fit" (.int 3)] ++
  (if (conf.lookup "poly_fitting").isSome then [.assign "do_poly_fitting" (.bool true)] else []) ++
  [.section_ "poly_fitting",
   .assign "type" (.str "w2dyn"), .assign "input_path" (.str "./"), .assign "fname_1p" (.str "1p-data.hdf5"),
   .assign "fname_2p" (.str "g4iw_sym.hdf5"), .assign "do_sym_v_vp" (.bool true),
   .section_ "dmft_input",
   .assign "save_vrg" (.bool false), .assign "save_fq" (.bool false), .assign "keep_fq_optics" (.bool false),
   .assign "keep_pairing_vertex" (.bool true), .assign "verbosity" (.int 1),
   .section_ "output",
   .assign "lambda_corr" (.str "spch"),
   .section_ "dga"]

/-- config.py:515-554 `DgaConfig.__init__`, the resulting instance dictionary -/
def newDga (sub : Dict) (conf : Conf) : Dict := exec conf (dgaProgram conf) sub

/-- config.py:499-511: class attributes of `DgaConfig` (no properties) -/
def dgaCls : Cls := ⟨[], [("sys", .null), ("box", .null), ("lattice", .null), ("eliash", .null), ("output_path", .null),
  ("do_poly_fitting", .bool false), ("poly_fit_dir", .null), ("logger", .null)]⟩

/-- config.py:403-425 `set_gap0_sing` / `set_gap0_trip`: the assigned dictionary -/
def gapVal (kSym : Val) (f : String → String) : Val :=
  .dict [("k", kSym), ("v", .str (match kSym with | .str s => f s | _ => "random"))]

/-- config.py:383-401 `EliashbergConfig.__init__`: defaults, update with the section `pairing`, `set_gap0`. -/
def newEliash (sec : Option Dict) : Dict :=
  let d0 : Dict := [("output_path", .null), ("do_pairing_vertex", .bool false), ("do_eliash", .bool false),
    ("gap0_sing", .null), ("gap0_trip", .null), ("n_eig", .int 2), ("k_sym", .str "random"), ("sym_sing", .bool true),
    ("sym_trip", .bool true), ("eps", .num (1 / 1000000)), ("max_count", .int 10000)]
  let d1 := match sec with | some e => update d0 e | none => d0
  let kSym := (d1.lookup "k_sym").getD .null
  put (put d1 "gap0_sing" (gapVal kSym gap0Sing)) "gap0_trip" (gapVal kSym gap0Trip)

/-- an integer attribute of the instance (config.py:163-166); any other value is outside the model and read as 0 -/
def intAttr (d : Dict) (k : String) : Int := match d.lookup k with | some (.int i) => i | _ => 0

/-- config.py:174-189 the properties of `BoxSizes` (`niv_full`, `vn_full`, `niv_pp`, `wn`), with
    `mf.vn(n) = arange(-n, n)` and `mf.wn(n) = arange(-n, n + 1)` (matsubara_frequencies.py:198-207, 305-313); `//` is floor
    division.  Simplified: the keyword call `mf.vn(n=...)` is taken to dispatch to the integer overload. -/
def boxCls : Cls :=
  ⟨[("niv_full", fun d => .int (intAttr d "niv_shell" + intAttr d "niv_core")),
    ("vn_full", fun d => .list ((Py.arange (-(intAttr d "niv_shell" + intAttr d "niv_core"))
      (intAttr d "niv_shell" + intAttr d "niv_core")).map .int)),
    ("niv_pp", fun d => .int (min (intAttr d "niw_core" / 2) (intAttr d "niv_core" / 2))),
    ("wn", fun d => .list ((Py.arange (-(intAttr d "niw_core")) (intAttr d "niw_core" + 1)).map .int))], []⟩

/-- config.py:162-172 `BoxSizes.__init__`: defaults, update with the section, `niv_asympt` filled in if it is -1. -/
def newBoxDict (sec : Option Dict) : Dict :=
  let d0 : Dict := [("niw_core", .int (-1)), ("niv_core", .int (-1)), ("niv_shell", .int 0), ("niv_asympt", .int (-1))]
  let d1 := match sec with | some e => update d0 e | none => d0
  if intAttr d1 "niv_asympt" = -1 then
    put d1 "niv_asympt" (.int (intAttr d1 "niv_shell" + intAttr d1 "niv_core" + intAttr d1 "niw_core" * 2))
  else d1

/-- config.py:685-735 `get_default_config_dict` -/
def defaultConf : Conf :=
  [("box", [("niv_core", .int (-1)), ("niw_core", .int (-1)), ("niv_shell", .int 0)]),
   ("lattice", [("symmetries", .str "two_dimensional_square"), ("type", .str "t_tp_tpp"),
     ("hr_input", .list [.num 1, .num (-2 / 10), .num (1 / 10)]), ("nk", .list [.int 24, .int 24, .int 1])]),
   ("dga", [("lambda_corr", .str "spch"), ("gui", .str "Agg")]),
   ("dmft_input", [("fname_1p", .str "1p-data.hdf5"), ("fname_2p", .str "g4iw_sym.hdf5"), ("input_path", .str "./"),
     ("type", .str "w2dyn")]),
   ("poly_fitting", [("n_fit", .int 4), ("o_fit", .int 3)]),
   ("optics", [("do_bubble", .bool false), ("do_vertex", .bool false), ("der_a", .int 0), ("der_b", .int 0),
     ("niw_cond", .int (-1)), ("niw_vert", .int (-1)), ("niv_bubble", .int (-1)), ("niv_vert", .int (-1))]),
   ("pairing", [("do_eliash", .bool false), ("do_pairing_vertex", .bool false), ("k_sym", .str "random")]),
   ("output", [("save_vrg", .bool false), ("save_fq", .bool false)]),
   ("debug", [("keep_rank_files", .bool false)])]

/-- config.py:567-571 `build_box_sizes`: reads the section `box_sizes`. -/
def boxOfConf (conf : Conf) : Box :=
  let int? (e : Dict) (k : String) : Option Int := match e.lookup k with | some (.int i) => some i | _ => none
  match conf.lookup "box_sizes" with
  | some e => newBox (int? e "niw_core") (int? e "niv_core") (int? e "niv_shell") (int? e "niv_asympt")
  | none => newBox none none none none

end DGA.Cfg
