import Verif.Model.Dot

/-! # Model of the output on files and windows (src/gimpy/graph.py 244-259, 1508-1535, 1654-1865, 2422-2434, 2492-2554)

The programs outside (Graphviz, dot2tex, LaTeX, Pillow, matplotlib, xdot) are the fields of `Env`.  Bytes are characters.
A file that can be opened for writing is assumed.  Messages on the screen are left out, except in `printFlow`.  Names of
temporary files are numbers, `mkstemp` gives one that was not used before.  Highlighted nodes are given by name; a `Node`
object of the graph behaves as its name.  The graph attributes `display` and `layout` are strings (`getAttr`). -/

namespace GiMPy
namespace Display
variable {N : Type} [DecidableEq N]

/-- what the surroundings do.  `graphviz layout format text` is the outcome of the program: `none` if it cannot be started
(OSError), otherwise return code and standard output.  `d2t` is `dot2tex.dot2tex`, `none` if it raises.  `latex`: the programs
`latex`, `dvips`, `pdflatex` can be started.  `image`: `PIL_Image.open` accepts the content.  `click`: the result of `plt.waitforbuttonpress`, `none` if
it raises. -/
structure Env where
  pil : Bool
  mpl : Bool
  xdot : Bool
  dot2tex : Bool
  graphviz : String → String → List Char → Option (Int × List Char)
  d2t : List Char → Option (List Char)
  latex : Bool
  image : List Char → Bool
  click : Option Bool

/-- the exceptions: `calledProcess` is raised by `check_returncode`, `badImage` by `PIL_Image.open`, `systemExit` by `exit()` -/
inductive DErr
  | py (e : PyErr) | calledProcess | badImage | systemExit
  deriving DecidableEq

/-- the graph, `self.attr`, the files on disk, the temporary files and the number of the next one, what windows showed, and the
programs run on the TeX file -/
structure DState (N : Type) where
  g : Graph N
  attr : Dict String (Val N)
  files : Dict String (List Char)
  tmp : Dict Nat (List Char)
  next : Nat
  shown : List (List Char)
  ran : List String

/-- what does not change: `str` of names, `self.name` and the clusters -/
structure Text (N : Type) where
  strN : N → List Char
  name : List Char
  clusters : List (Val N × Misc.Cluster N)

abbrev DIO (N α : Type) := EStateM DErr (DState N) α

/-- GRAPH_ATTRIBUTES: global_constants.py 14-30 -/
def graphAttributes : List String :=
  ["Damping", "K", "URL", "aspect", "bb", "bgcolor",
   "center", "charset", "clusterrank", "colorscheme", "comment", "compound",
   "concentrate", "defaultdist", "dim", "dimen", "diredgeconstraints",
   "dpi", "epsilon", "esep", "fontcolor", "fontname", "fontnames",
   "fontpath", "fontsize", "id", "label", "labeljust", "labelloc",
   "landscape", "layers", "layersep", "layout", "levels", "levelsgap",
   "lheight", "lp", "lwidth", "margin", "maxiter", "mclimit", "mindist",
   "mode", "model", "mosek", "nodesep", "nojustify", "normalize", "nslimit",
   "nslimit1", "ordering", "orientation", "outputorder", "overlap",
   "overlap_scaling", "pack", "packmode", "pad", "page", "pagedir",
   "quadtree", "quantum", "rankdir", "ranksep", "ratio", "remincross",
   "repulsiveforce", "resolution", "root", "rotate", "searchsize", "sep",
   "showboxes", "size", "smoothing", "sortv", "splines", "start",
   "stylesheet", "target", "truecolor", "viewport", "voro_margin", "d2tgraphstyle", "rank"]

/-- `self.to_string()` on the current state: graph.py 627-692, 643-644 -/
def text (T : Text N) (st : DState N) : Except PyErr (List Char) :=
  Dot.toString T.strN T.name st.g (st.attr.entries.filter fun p => graphAttributes.contains p.1) T.clusters

/-- a value or an exception of the Python model -/
def lift {α : Type} : Except PyErr α → DIO N α
  | .ok x => pure x
  | .error e => throw (.py e)

/-- `self.to_string()` -/
def toStr (T : Text N) : DIO N (List Char) := do lift (text T (← get))

/-- `self.attr[a]` for a string -/
def getAttr (a : String) : DIO N String := do
  match (← get).attr.get? a with
  | some (.str s) => pure s
  | some _ => throw (.py .typeError)
  | none => throw (.py .keyError)

/-- `get_layout`: graph.py 1654-1663 -/
def getLayout : DIO N String := getAttr "layout"

/-- `self.attr[a] = s` -/
def setAttr (a s : String) : DIO N Unit := modify fun st => { st with attr := st.attr.set a (.str s) }

/-- the style for dot2tex: graph.py 1676 -/
def texStyle : String := "every text node part/.style={align=center}"

/-- `set_layout`: graph.py 1665-1676 -/
def setLayout (v : String) : DIO N Unit := do
  setAttr "layout" v
  if v = "dot2tex" then setAttr "d2tgraphstyle" texStyle

/-- `tempfile.mkstemp()` -/
def mkstemp : DIO N Nat := do
  let st ← get
  set { st with tmp := st.tmp.set st.next [], next := st.next + 1 }
  pure st.next

/-- write to a temporary file -/
def tmpWrite (i : Nat) (s : List Char) : DIO N Unit := modify fun st => { st with tmp := st.tmp.set i s }

/-- `os.remove(tmp_name)` -/
def tmpRemove (i : Nat) : DIO N Unit := modify fun st => { st with tmp := st.tmp.erase i }

/-- `create`: graph.py 1700-1733 -/
def create (E : Env) (T : Text N) (layout format : String) : DIO N (Option (List Char)) := do
  let i ← mkstemp
  let s ← toStr T
  tmpWrite i s
  match E.graphviz layout format s with
  | none => pure none
  | some (code, out) =>
    if code ≠ 0 then throw .calledProcess
    else do
      tmpRemove i
      pure (some out)

/-- `write(file_obj, layout, format)`: graph.py 1678-1698, with a layout; the result is what is written to the file -/
def write (E : Env) (T : Text N) (layout format : String) : DIO N (List Char) := do
  if format = "dot" then toStr T
  else do
    let out ← create E T layout format
    match out with
    | none => pure []
    | some s => pure s

/-- `open(name, "w+b")`: the file is empty from now on -/
def openFile (f : String) : DIO N Unit := modify fun st => { st with files := st.files.set f [] }

/-- the file gets its content -/
def fileWrite (f : String) (s : List Char) : DIO N Unit := modify fun st => { st with files := st.files.set f s }

/-- `for n in highlight: self.get_node(n).set_attr('color', c)`: graph.py 1763-1767, 1861-1865 -/
def colour (c : String) : List N → DIO N Unit
  | [] => pure ()
  | n :: l => do
    let st ← get
    match st.g.nodes.get? n with
    | none => throw (.py .attributeError)
    | some d => set { st with g := { st.g with nodes := st.g.nodes.set n (d.set "color" (.str c)) } }
    colour c l

/-- `if highlight != None` -/
def colourAll (c : String) : Option (List N) → DIO N Unit
  | none => pure ()
  | some l => colour c l

/-- `subprocess.call([prog, basename])` -/
def runProg (prog : String) : DIO N Unit := modify fun st => { st with ran := st.ran ++ [prog] }

/-- the `try` statement with `dot2tex`: graph.py 1775-1792.  The result is the variable `tex`, which has no value if `dot2tex`
is not installed or raises, and `format`.  The inner `try` catches everything and only writes a file with the DOT text. -/
def texTry (E : Env) (T : Text N) (basename format : String) : DIO N (Option (List Char) × String) := do
  if E.dot2tex then do
    -- format != 'pdf' or format != 'ps' holds for every format
    let format' := if format ≠ "pdf" ∨ format ≠ "ps" then "pdf" else format
    setLayout "dot"
    match text T (← get) with
    | .ok s => match E.d2t s with
      | some t => pure (some t, format')
      | none => do
        setLayout "dot"
        openFile (basename ++ ".dot")
        fileWrite (basename ++ ".dot") s
        pure (none, format')
    | .error _ => do
      setLayout "dot"
      openFile (basename ++ ".dot")
      pure (none, format')
  else pure (none, format)

/-- the converter from DVI: graph.py 1797-1800 -/
def convert (format : String) : DIO N Unit :=
  if format = "ps" then runProg "dvips"
  else if format = "pdf" then runProg "pdflatex"
  else pure ()

/-- the branch for mode 'file' and layout 'dot2tex': graph.py 1774-1803 -/
def fileTex (E : Env) (T : Text N) (basename format : String) : DIO N Unit := do
  let r ← texTry E T basename format
  openFile (basename ++ ".tex")
  match r.1 with
  | none => throw (.py .unboundLocal)
  | some t => do
    fileWrite (basename ++ ".tex") t
    if E.latex then do
      runProg "latex"
      convert r.2
      setLayout "dot2tex"
    else pure ()

/-- the branch for mode 'file': graph.py 1773-1807 -/
def fileMode (E : Env) (T : Text N) (basename format : String) : DIO N Unit := do
  if (← getLayout) = "dot2tex" then fileTex E T basename format
  else do
    openFile (basename ++ "." ++ format)
    let s ← write E T (← getLayout) format
    fileWrite (basename ++ "." ++ format) s

/-- the picture in a temporary file: graph.py 1810-1815, 1822-1827 -/
def picture (E : Env) (T : Text N) (format : String) : DIO N (Nat × List Char) := do
  let i ← mkstemp
  let s ← write E T (← getLayout) format
  tmpWrite i s
  if E.image s then pure (i, s) else throw .badImage

/-- the branch for mode 'PIL': graph.py 1808-1819 -/
def pilMode (E : Env) (T : Text N) (format : String) : DIO N Unit := do
  if E.pil then do
    let p ← picture E T format
    modify fun st => { st with shown := st.shown ++ [p.2] }
    tmpRemove p.1
  else setAttr "display" "off"

/-- the branch for mode 'matplotlib': graph.py 1820-1848; a click and an exception both end the program -/
def mplMode (E : Env) (T : Text N) (format : String) (wait : Bool) : DIO N Unit := do
  if E.mpl && E.pil then do
    let p ← picture E T format
    modify fun st => { st with shown := st.shown ++ [p.2] }
    if wait && !(E.click == some false) then throw .systemExit
    else tmpRemove p.1
  else setAttr "display" "off"

/-- the branch for mode 'xdot': graph.py 1849-1857 -/
def xdotMode (E : Env) (T : Text N) : DIO N Unit := do
  if E.xdot then do
    let s ← toStr T
    modify fun st => { st with shown := st.shown ++ [s] }
  else setAttr "display" "off"

/-- the branches for windows: graph.py 1808-1860 -/
def window (E : Env) (T : Text N) (mode format : String) (wait : Bool) : DIO N Unit :=
  if mode = "PIL" then pilMode E T format
  else if mode = "matplotlib" then mplMode E T format wait
  else if mode = "xdot" then xdotMode E T
  else pure ()

/-- dot2tex works only with mode 'file': graph.py 1768-1772 -/
def forceFile : DIO N Unit := do
  if (← getLayout) = "dot2tex" then setAttr "display" "file" else pure ()

/-- `display`: graph.py 1735-1865 -/
def display (E : Env) (T : Text N) (highlight : Option (List N)) (basename format : String) (wait : Bool) :
    DIO N Unit := do
  if (← getAttr "display") = "off" then pure ()
  else do
    colourAll "red" highlight
    forceFile
    let mode ← getAttr "display"
    if mode = "file" then fileMode E T basename format
    else do
      window E T mode format wait
      colourAll "black" highlight

/-! ## Text for the user -/

/-- `__repr__` before the last line break is cut off: graph.py 253-257; `reprL` is `__repr__` of a list of names -/
def reprLines (strN : N → List Char) (reprL : List N → List Char) (g : Graph N) : List N → Except PyErr (List Char)
  | [] => .ok []
  | n :: l => match g.getNeighbors n with
    | .error e => .error e
    | .ok nb => match reprLines strN reprL g l with
      | .error e => .error e
      | .ok r => .ok (strN n ++ [' ', '-', '>', ' '] ++ reprL nb ++ ['\n'] ++ r)

/-- `__repr__`: graph.py 244-259 -/
def repr (strN : N → List Char) (reprL : List N → List Char) (g : Graph N) : Except PyErr (List Char) :=
  match reprLines strN reprL g g.nodes.keys with
  | .error e => .error e
  | .ok s => .ok s.dropLast

/-- the lines that `print_flow` prints after the heading: graph.py 2551-2554; arc, flow and capacity -/
def printFlow (g : Graph N) : List (N × N) → Except PyErr (List ((N × N) × Val N × Val N))
  | [] => .ok []
  | e :: l => match (g.edgeAttr.get? e).bind (·.get? "flow") with
    | none => .error .keyError
    | some f =>
      if f = .int 0 then printFlow g l
      else match (g.edgeAttr.get? e).bind (·.get? "capacity") with
        | none => .error .keyError
        | some c => match printFlow g l with
          | .error e => .error e
          | .ok r => .ok ((e, f, c) :: r)

/-! ## Labels and colours -/

/-- `str` of a number -/
def strInt (i : Int) : String := toString i

/-- INF: global_constants.py 70 -/
def INF : Int := 10000

/-- an integer attribute of an arc; the graph is a digraph with integer attributes -/
def arcInt (g : Graph N) (u v : N) (a : String) : Except PyErr Int :=
  match g.getEdgeAttr u v a with
  | .error e => .error e
  | .ok (.int i) => .ok i
  | .ok _ => .error .typeError

/-- an integer attribute of a node -/
def nodeInt (g : Graph N) (u : N) (a : String) : Except PyErr Int :=
  match g.getNodeAttr u a with
  | .error e => .error e
  | .ok (.int i) => .ok i
  | .ok _ => .error .typeError

/-- the loop over the neighbours in `show_flow`: graph.py 1520-1534 -/
def showArcs (n : N) : List N → GM N Unit
  | [] => pure ()
  | m :: l => do
    let g ← get
    match arcInt g n m "capacity", arcInt g n m "flow" with
    | .error e, _ => throw e
    | _, .error e => throw e
    | .ok c, .ok f => do
      Graph.setEdgeAttr n m "label" (.str (if c = INF then "INF" ++ "/" ++ strInt f else strInt c ++ "/" ++ strInt f))
      Graph.setEdgeAttr n m "color" (.str (if c = f then "red" else if f > 0 then "green" else "black"))
      showArcs n l

/-- the loop over the nodes in `show_flow`: graph.py 1516-1534 -/
def showNodes : List N → GM N Unit
  | [] => pure ()
  | n :: l => do
    let g ← get
    match nodeInt g n "excess", nodeInt g n "distance" with
    | .error e, _ => throw e
    | _, .error e => throw e
    | .ok x, .ok d => do
      Graph.setNodeAttr n "label" (.str (strInt x ++ "/" ++ strInt d))
      match (← get).getNeighbors n with
      | .error e => throw e
      | .ok nb => do
        showArcs n nb
        showNodes l

/-- `show_flow`: graph.py 1508-1535, without the call of `display` -/
def showFlow : GM N Unit := do
  let g ← get
  showNodes g.getNodeList

/-- `simplex_mark_leaving_arc`: graph.py 2422-2434 -/
def markLeaving (p q : N) : GM N Unit := Graph.setEdgeAttr p q "color" (.str "red")

/-- `simplex_mark_entering_arc`: graph.py 2492-2504 -/
def markEntering (k l : N) : GM N Unit := Graph.setEdgeAttr k l "color" (.str "green")

/-- `simplex_mark_st_arcs`: graph.py 2506-2540; `tel` are the arcs of the tree -/
def markTree (tel : List (N × N)) : List (N × N) → GM N Unit
  | [] => pure ()
  | e :: l => do
    let g ← get
    match (g.edgeAttr.get? e).bind (·.get? "flow"), (g.edgeAttr.get? e).bind (·.get? "capacity") with
    | none, _ => throw .keyError
    | _, none => throw .keyError
    | some f, some c =>
      if tel.contains e then do
        Graph.setEdgeAttr e.1 e.2 "color" (.str (if f = .int 0 then "blue" else if f = c then "blue" else "blue"))
        markTree tel l
      else if f = .int 0 then do
        Graph.setEdgeAttr e.1 e.2 "color" (.str "black")
        markTree tel l
      else if f = c then do
        Graph.setEdgeAttr e.1 e.2 "color" (.str "black")
        markTree tel l
      else throw .exception

end Display
end GiMPy
