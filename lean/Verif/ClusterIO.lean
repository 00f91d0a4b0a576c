import Verif.Props.Cluster
import Mathlib.Data.Nat.Digits.Defs
import Mathlib.Data.List.GetD

/-! # Saving and reading a cluster tree

Model of `save_cluster_tree` and `read_cluster_tree` (`include/htool/clustering/cluster_output.hpp` 32-181) and of the
string helpers of `include/htool/misc/user.hpp`, at the level of the characters of the two text files. -/

namespace Htool.ClusterIO

/-- `std::string`. -/
abbrev Str := List Char

/-- `split(s, delim)` (user.hpp 29-41) for the one-character delimiters the code uses: the text before each
occurrence, then the remaining text. -/
def splitStr (d : Char) : Str → List Str
  | [] => [[]]
  | c :: s => if c = d then [] :: splitStr d s
    else match splitStr d s with
      | [] => [[c]]
      | x :: xs => (c :: x) :: xs

/-- `join(delimiter, x)` (user.hpp 43-45). -/
def joinStr (d : Char) (x : List Str) : Str :=
  x.foldl (fun ss s => if ss.isEmpty then s else ss ++ d :: s) []

/-- The character of a decimal digit. -/
def digitChar (k : ℕ) : Char := Char.ofNat (48 + k)

/-- `operator<<` of a non-negative integer, decimal without leading zeros. -/
def natStr (n : ℕ) : Str :=
  if n = 0 then ['0'] else (Nat.digits 10 n).reverse.map digitChar

/-- `NbrToStr<int>` (user.hpp 13-18). -/
def intStr : ℤ → Str
  | Int.ofNat n => natStr n
  | Int.negSucc n => '-' :: natStr (n + 1)

/-- The digit of a character, if it is one. -/
def digitVal (c : Char) : Option ℕ := if 48 ≤ c.toNat ∧ c.toNat ≤ 57 then some (c.toNat - 48) else none

/-- Digits read by `strtol`: the longest prefix of digits, most significant first. -/
def digitPrefix : Str → List ℕ
  | [] => []
  | c :: s => match digitVal c with
    | some k => k :: digitPrefix s
    | none => []

/-- A value of type `int` (32 bits). -/
def FitsInt (z : ℤ) : Prop := -2147483648 ≤ z ∧ z ≤ 2147483647

instance (z : ℤ) : Decidable (FitsInt z) := by unfold FitsInt; infer_instance

/-- `strtol` in base 10 without the initial white space, which never occurs here. -/
def strtol (s : Str) : Option ℤ :=
  match s with
  | '-' :: r => if digitPrefix r = [] then none else some (-((digitPrefix r).foldl (fun a k => 10 * a + k) 0 : ℕ))
  | r => if digitPrefix r = [] then none else some ((digitPrefix r).foldl (fun a k => 10 * a + k) 0 : ℕ)

/-- `std::stoi`: `none` = the exception `invalid_argument` or `out_of_range`. -/
def stoi (s : Str) : Option ℤ := (strtol s).bind fun z => if FitsInt z then some z else none

/-- Text form of coordinates: `operator<<` and `operator>>` of `CoordinatesPrecision` (user.hpp 13-25) and the
conversion of a coordinate to `int` (cluster_output.hpp 167). Arbitrary here; printing with six significant digits
loses digits, so reading back gives `parse (fmt x)`. -/
structure NumFmt (K : Type*) where
  fmt : K → Str
  parse : Str → K
  toInt : K → ℤ

/-- `ClusterTreeData` (cluster_tree_data.hpp 14-28): permutation, depths, partition and the two remaining settings. -/
structure TreeData (G : Type*) where
  st : CState G
  minclustersize : ℕ
  isLocal : Bool

variable {K : Type*}

/-- Radius and center of a cluster (cluster_node.hpp 19-20). -/
abbrev Geo (K : Type*) := K × List K

/-- `is_cluster_on_partition` (cluster_node.hpp 84-87): compares the depth with the depth of the first partition cluster.
`none` = that cluster does not exist (null or out of bounds access). -/
def isOnPartition (parts : List (Option (CNode (Geo K)))) (c : CNode (Geo K)) : Option Bool :=
  ((parts[0]?).join).map fun p => decide (c.depth = p.depth)

/-- One cluster as text (cluster_output.hpp 61-72): fields separated by `|`. -/
def nodeStr (F : NumFmt K) (flag : Bool) (t : Tree (CNode (Geo K))) : Str :=
  joinStr '|' ([intStr t.children.length, intStr t.label.rank, intStr t.label.offset, intStr t.label.size,
    F.fmt t.label.geo.1, intStr t.label.counter, intStr (if flag then 1 else 0)] ++ t.label.geo.2.map F.fmt)

/-- Visit of one cluster in the traversal of `save_cluster_tree` (cluster_output.hpp 60-74): its text is appended to the
row of its depth. `none` = out of bounds. -/
def saveStep (F : NumFmt K) (parts : List (Option (CNode (Geo K)))) (acc : Option (List (List Str)))
    (t : Tree (CNode (Geo K))) : Option (List (List Str)) :=
  acc.bind fun rows => (isOnPartition parts t.label).bind fun flag =>
    if t.label.depth < rows.length then
      some (rows.set t.label.depth (rows.getD t.label.depth [] ++ [nodeStr F flag t]))
    else none

/-- `outputs` after the traversal (cluster_output.hpp 56-74). -/
def saveRows (F : NumFmt K) (t : Tree (CNode (Geo K))) (D : TreeData (Geo K)) : Option (List (List Str)) :=
  t.preorderTraversal.foldl (saveStep F D.st.parts) (some (List.replicate (D.st.maxDepth + 1) []))

/-- Writing of a list of texts separated by commas (the loops of lines 43-50 and 77-82). -/
def commas : List Str → Str
  | [] => []
  | [x] => x
  | x :: y :: xs => x ++ ',' :: commas (y :: xs)

/-- The file `_cluster_tree.csv` (cluster_output.hpp 55-84). -/
def saveTreeFile (F : NumFmt K) (t : Tree (CNode (Geo K))) (D : TreeData (Geo K)) : Option Str :=
  (saveRows F t D).map fun rows => (rows.map fun r => commas r ++ ['\n']).flatten

/-- The file `_cluster_tree_properties.csv` (cluster_output.hpp 34-52). With an empty permutation no line end follows
the word `permutation`. -/
def savePropsFile (D : TreeData (Geo K)) : Str :=
  "minclustersize: ".toList ++ natStr D.minclustersize ++ ['\n'] ++
  "maximal depth: ".toList ++ natStr D.st.maxDepth ++ ['\n'] ++
  "minimal depth: ".toList ++ natStr D.st.minDepth ++ ['\n'] ++
  "permutation: ".toList ++ commas (D.st.perm.map natStr) ++ (if D.st.perm = [] then [] else ['\n']) ++
  "local permutation: ".toList ++ natStr (if D.isLocal then 1 else 0) ++ ['\n']

/-- Lines of a file read with `std::getline`: an end of line at the end of the file does not start a new line. -/
def getLines (s : Str) : List Str :=
  let l := splitStr '\n' s
  if l.getLast? = some [] then l.dropLast else l

/-- `std::getline(stream, line)` with the unread text and the end-of-file flag of the stream, and the previous content of `line`. When the end of the file was
reached before, the call fails without changing `line`; otherwise `line` becomes the text before the next line end, or all the remaining text (possibly none). -/
def getlineS (s : Str × Bool) (line : Str) : Str × (Str × Bool) :=
  if s.2 then (line, s)
  else
    match s.1.dropWhile (fun c => c ≠ '\n') with
    | [] => (s.1, ([], true))
    | _ :: r => (s.1.takeWhile (fun c => c ≠ '\n'), (r, false))

/-- The values of `line` after each of `n` calls of `std::getline` whose results are not tested (cluster_output.hpp 120-139). -/
def getLinesS : ℕ → Str × Bool → Str → List Str
  | 0, _, _ => []
  | n + 1, s, line => (getlineS s line).1 :: getLinesS n (getlineS s line).2 (getlineS s line).1

/-- `split(line, " ").back()`. -/
def lastWord (s : Str) : Str := (splitStr ' ' s).getLast?.getD []

/-- The fields of a cluster as read from its text. -/
structure NodeInfo (K : Type*) where
  nch : ℕ
  rank : ℤ
  offset : ℕ
  size : ℕ
  radius : K
  counter : ℤ
  onPart : Bool
  center : List K

/-- Fields number `i` as `int` (`std::stoi(local_info_str[i])`). -/
def fieldInt (fs : List Str) (i : ℕ) : Option ℤ := (fs[i]?).bind stoi

/-- `std::stoi` into a variable used as a size or an index. -/
def fieldNat (fs : List Str) (i : ℕ) : Option ℕ :=
  (fieldInt fs i).bind fun z => if 0 ≤ z then some z.toNat else none

/-- Center: `dim` fields from field 7 (cluster_output.hpp 113-115 and 161-163). -/
def fieldCenter (F : NumFmt K) (fs : List Str) (dim : ℕ) : Option (List K) :=
  (List.range dim).mapM fun l => (fs[7 + l]?).map F.parse

/-- `StrToNbr<bool>` (user.hpp 20-25): 0 on failure, and only 0 and 1 are accepted. -/
def strBool (s : Str) : Bool := decide (strtol s = some 1)

/-- Fields of a child (cluster_output.hpp 157-168); the counter is parsed as a coordinate and converted. -/
def parseNode (F : NumFmt K) (dim : ℕ) (s : Str) : Option (NodeInfo K) :=
  let fs := splitStr '|' s
  (fieldNat fs 0).bind fun nch => (fs[4]?).bind fun r => (fieldCenter F fs dim).bind fun ctr =>
  (fieldInt fs 1).bind fun rank => (fieldNat fs 2).bind fun off => (fieldNat fs 3).bind fun sz =>
  (fs[5]?).bind fun cn => (fs[6]?).bind fun fl =>
  some { nch := nch, rank := rank, offset := off, size := sz, radius := F.parse r,
         counter := F.toInt (F.parse cn), onPart := strBool fl, center := ctr }

/-- The child built from its text (`add_child`, cluster_output.hpp 169). Simplification: counters are non-negative. -/
def NodeInfo.node (i : NodeInfo K) (depth : ℕ) : CNode (Geo K) :=
  { offset := i.offset, size := i.size, depth := depth, rank := i.rank, counter := i.counter.toNat,
    onPart := i.onPart, geo := (i.radius, i.center) }

/-- What changes while reading: the next unread position of each row (`counter_offset`) and the partition. -/
structure RState (K : Type*) where
  off : ℕ → ℕ
  parts : List (Option (CNode (Geo K)))

/-- The texts of the children of a cluster of depth `depth` (cluster_output.hpp 156-170). -/
def readChildren (F : NumFmt K) (dim : ℕ) (outputs : List (List Str)) (depth nch : ℕ) (off : ℕ → ℕ) :
    Option (List (NodeInfo K)) :=
  (List.range nch).mapM fun p =>
    (outputs[depth + 1]?).bind fun row => (row[off (depth + 1) + p]?).bind (parseNode F dim)

/-- Processing of the pushed children: the first child is on top of the stack (cluster_output.hpp 174-176). -/
def readList {C T S : Type*} (g : C → S → Option (T × S)) : List C → S → Option (List T × S)
  | [], s => some ([], s)
  | c :: cs, s => (g c s).bind fun r => (readList g cs r.2).bind fun q => some (r.1 :: q.1, q.2)

/-- The loop of `read_cluster_tree` (cluster_output.hpp 143-178) from the moment a cluster is popped to the moment all
its descendants are done. Simplification: the explicit stack is a recursion in the same order; `fuel` bounds the number
of levels, which the number of rows bounds too. `none` = out of bounds or exception. -/
def readNode (F : NumFmt K) (dim : ℕ) (outputs : List (List Str)) :
    ℕ → CNode (Geo K) × ℕ → RState K → Option (Tree (CNode (Geo K)) × RState K)
  | 0, _, _ => none
  | f + 1, c, s =>
    (readChildren F dim outputs c.1.depth c.2 s.off).bind fun infos =>
      let cs := infos.map fun i => i.node (c.1.depth + 1)
      let parts := cs.foldl (fun ps d => if d.onPart then setPart ps d else ps) s.parts
      let off := if c.2 = 0 then s.off else Function.update s.off (c.1.depth + 1) (s.off (c.1.depth + 1) + c.2)
      (readList (readNode F dim outputs f) (cs.zip (infos.map NodeInfo.nch)) { off := off, parts := parts }).bind
        fun r => some (Tree.node c.1 r.1, r.2)

/-- Writing of the permutation read from the file into the array of the root, which has `size` entries
(cluster_output.hpp 134-137). `none` = out of bounds. -/
def readPerm (size : ℕ) (ws : List Str) : Option (List ℕ) :=
  (ws.mapM stoi).bind fun zs =>
    if zs.length ≤ size then some (zs.map Int.toNat ++ (List.range size).drop zs.length) else none

/-- The root from its fields (cluster_output.hpp 103-117), with its number of children. It is built by the root
constructor (cluster_node.hpp 28-32): its counter is 0 and it is not registered on the partition whatever the file says. -/
def readRoot (F : NumFmt K) (fs : List Str) : Option (CNode (Geo K) × ℕ) :=
  (fieldNat fs 0).bind fun nch => (fieldInt fs 1).bind fun rank => (fieldNat fs 2).bind fun off =>
  (fieldNat fs 3).bind fun size => (fs[4]?).bind fun r => (fieldInt fs 5).bind fun _ =>
  (fieldCenter F fs (fs.length - 7)).bind fun ctr =>
  some ({ offset := off, size := size, depth := 0, rank := rank, counter := 0, onPart := false,
          geo := (F.parse r, ctr) }, nch)

/-- The lines of the properties file (cluster_output.hpp 120-141), as they are in `line` one after the other. -/
def readProps (size : ℕ) (ls : List Str) : Option (TreeData (Geo K)) :=
  (strtol (lastWord (ls.getD 0 []))).bind fun mcs => (stoi (lastWord (ls.getD 1 []))).bind fun maxd =>
  (stoi (lastWord (ls.getD 2 []))).bind fun mind =>
  (readPerm size (splitStr ',' (lastWord (ls.getD 3 [])))).bind fun perm =>
  (stoi (lastWord (ls.getD 4 []))).bind fun loc =>
  some { st := { perm := perm, maxDepth := maxd.toNat, minDepth := mind.toNat, parts := [] },
         minclustersize := mcs.toNat, isLocal := decide (loc ≠ 0) }

/-- `read_cluster_tree` once the tree file is split into rows and cells (cluster_output.hpp 100-181). -/
def readOutputs (F : NumFmt K) (props : Str) (outputs : List (List Str)) :
    Option (Tree (CNode (Geo K)) × TreeData (Geo K)) :=
  ((outputs[0]?).bind fun row => row[0]?).bind fun s0 =>
  (readRoot F (splitStr '|' s0)).bind fun root =>
  (readProps (K := K) root.1.size (getLinesS 5 (props, false) [])).bind fun D =>
  (readNode F ((splitStr '|' s0).length - 7) outputs (outputs.length + 1) root { off := fun _ => 0, parts := [] }).bind
    fun res => some (res.1, { D with st := { D.st with parts := res.2.parts } })

/-- `read_cluster_tree` (cluster_output.hpp 86-181). -/
def readClusterTree (F : NumFmt K) (props tree : Str) : Option (Tree (CNode (Geo K)) × TreeData (Geo K)) :=
  readOutputs F props ((getLines tree).map (splitStr ','))

end Htool.ClusterIO
