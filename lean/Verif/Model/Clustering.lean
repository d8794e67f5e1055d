import Verif.Model.Calibration
import Verif.Model.PldLibrary
import Mathlib.Analysis.InnerProductSpace.PiL2

/-!
# Model of the differentially private clustering (`learning/clustering`)

Points are vectors of reals, a data set is the list of its rows. Hash prefixes (strings of `"0"` and `"1"`) are lists of booleans,
`false` for `"0"`. The random draws are parameters: `countNoise p` is the discrete Laplace draw made when the node with prefix `p` is
counted and `sumNoise p` the standard normal vector drawn when it is averaged. (Python draws from one stream, in the order in which
the nodes are created; a prefix is drawn for at most once, see `C46_prefixes_once`.) The projection vectors of the hash are a
parameter, too.

Not modelled: logging, and `sklearn.cluster.KMeans`, which only sees the coreset. Labels, metrics and the final non-private labelling are
in `Model/ClusteringResult`.
-/

namespace Verif.Clustering
open scoped RealInnerProductSpace

/-- A data point. A row of `datapoints`, `clustering_params.py:155-200`. -/
abbrev Point (d : ℕ) := EuclideanSpace ℝ (Fin d)

variable {d : ℕ}

/-- The factor for one point, `clustering_params.py:195-196` (`radius / np.maximum(norm, radius)`). -/
noncomputable def clipScale (radius : ℝ) (x : Point d) : ℝ := radius / max ‖x‖ radius

/-- `Data.clip_by_radius`, `clustering_params.py:182-201`. `np.min` of an empty array raises `ValueError` (line 197). The radius is
positive where it is called (`AveragePrivacyParam` has checked it). -/
noncomputable def clipByRadius (radius : ℝ) (pts : List (Point d)) : Except Err (List (Point d)) :=
  if pts.isEmpty then .error .valueError else .ok (pts.map fun x => clipScale radius x • x)

open Classical in
/-- `SimHash.group_by_next_hash`, `lsh.py:53-78`: the items of the returned dict, in order. `v i` is row `i` of the projection
vectors, of which there are `maxHashLen`. -/
noncomputable def groupByNextHash (maxHashLen : ℤ) (v : ℕ → Point d) (pts : List (Point d)) (pre : List Bool) :
    Except Err (List (Bool × List (Point d))) :=
  if (pre.length : ℤ) ≥ maxHashLen then .error .valueError
  else .ok [(false, pts.filter fun x => ⟪x, v pre.length⟫ ≥ 0), (true, pts.filter fun x => ⟪x, v pre.length⟫ < 0)]

/-- `PrivacyCalculator`: `average_privacy_param` (`gaussian_standard_deviation`, `sensitivity`) and `count_privacy_param`
(`laplace_param`), `privacy_calculator.py:99-108`. -/
structure PCalc where
  stdDev : ℝ
  sensitivity : ℝ
  laplaceParam : PyNum

open Classical in
/-- `AveragePrivacyParam(std, sensitivity)` and `CountPrivacyParam(laplace_param)`, `central_privacy_utils.py:22-39, 70-80`. -/
noncomputable def mkPCalc (stdDev sensitivity : ℝ) (laplaceParam : PyNum) : Except Err PCalc :=
  if stdDev < 0 then .error .valueError
  else if sensitivity ≤ 0 then .error .valueError
  else if laplaceParam.val ≤ 0 then .error .valueError
  else .ok ⟨stdDev, sensitivity, laplaceParam⟩

open Classical in
/-- `get_private_count`, `central_privacy_utils.py:83-99`; `noise` is `stats.dlaplace.rvs(laplace_param)`. -/
noncomputable def getPrivateCount (nonprivateCount : ℤ) (laplaceParam : PyNum) (noise : ℤ) : ℤ :=
  if laplaceParam.val = ⊤ then nonprivateCount else nonprivateCount + noise

/-- `get_private_average`, `central_privacy_utils.py:42-67`; `np.random.normal(scale=stdDev, size=dim)` is `stdDev • noise`. -/
noncomputable def getPrivateAverage (pts : List (Point d)) (privateCount : ℤ) (stdDev : ℝ) (noise : Point d) : Except Err (Point d) :=
  if privateCount < 1 then .error .valueError
  else .ok ((privateCount : ℝ)⁻¹ • (pts.sum + stdDev • noise))

/-- `TreeParam`, `clustering_params.py:125-138`. -/
structure TreeParam where
  minBranching : ℤ
  minNode : ℤ
  maxDepth : ℤ

/-- `TreeParam(...)` with its checks, `clustering_params.py:140-147`. -/
def mkTreeParam (minBranching minNode maxDepth : ℤ) : Except Err TreeParam :=
  if minNode < 1 then .error .valueError
  else if minBranching < minNode then .error .valueError
  else .ok ⟨minBranching, minNode, maxDepth⟩

/-- `LshTreeNode`, `lsh_tree.py:30-53`: hash prefix, points, private count (set by `__post_init__`). -/
structure Node (d : ℕ) where
  pre : List Bool
  points : List (Point d)
  privateCount : ℤ

/-- What is fixed during the construction of the tree: `coreset_param`, `sim_hash` and the draws. `lsh_tree.py:31-53`. -/
structure Env (d : ℕ) where
  pcalc : PCalc
  tree : TreeParam
  radius : ℝ
  proj : ℕ → Point d
  countNoise : List Bool → ℤ
  sumNoise : List Bool → Point d

/-- `LshTreeNode(prefix, points, coreset_param, sim_hash)`, `lsh_tree.py:51-53, 69-77`. -/
noncomputable def mkNode (E : Env d) (pre : List Bool) (pts : List (Point d)) : Node d :=
  ⟨pre, pts, getPrivateCount pts.length E.pcalc.laplaceParam (E.countNoise pre)⟩

/-- `LshTreeNode.children`, `lsh_tree.py:79-93`. -/
noncomputable def children (E : Env d) (n : Node d) : Except Err (List (Node d)) := do
  let groups ← groupByNextHash E.tree.maxDepth E.proj n.points n.pre
  .ok (groups.map fun g => mkNode E (n.pre ++ [g.1]) g.2)

/-- `root_node`, `lsh_tree.py:110-123`. `SimHash` draws an array with `max_depth` rows: `ValueError` if negative (`lsh.py:48-50`). -/
noncomputable def rootNode (E : Env d) (pts : List (Point d)) (privateCount : Option ℤ) : Except Err (Node d) :=
  if E.tree.maxDepth < 0 then .error .valueError
  else match privateCount with
    | some c => .ok ⟨[], pts, c⟩
    | none => .ok (mkNode E [] pts)

/-- `LshTree.filter_branching_nodes`, `lsh_tree.py:189-201`. -/
def filterBranching (E : Env d) (level : List (Node d)) : List (Node d) :=
  level.filter fun n => n.privateCount ≥ E.tree.minBranching

/-- The loop of `LshTree.get_next_level`, `lsh_tree.py:210-212`. -/
noncomputable def flattenChildren (E : Env d) : List (Node d) → Except Err (List (Node d))
  | [] => .ok []
  | n :: ns => do
    let c ← children E n
    let cs ← flattenChildren E ns
    .ok (c ++ cs)

/-- `LshTree.get_next_level`, `lsh_tree.py:203-218`. -/
noncomputable def getNextLevel (E : Env d) (nodes : List (Node d)) : Except Err (List (Node d)) := do
  let cs ← flattenChildren E nodes
  .ok (cs.filter fun n => n.privateCount ≥ E.tree.minNode)

/-- The loop of `LshTree.__init__`, `lsh_tree.py:147-160`; `fuel` is `max_depth - level_idx`. The levels from `level` on. -/
noncomputable def levels (E : Env d) : (fuel : ℕ) → (level : List (Node d)) → Except Err (List (List (Node d)))
  | 0, level => .ok [level]
  | fuel + 1, level => do
    let next ← getNextLevel E (filterBranching E level)
    if next.isEmpty then .ok [level]
    else
      let rest ← levels E fuel next
      .ok (level :: rest)

/-- `LshTree.is_leaf`, `lsh_tree.py:169-187`. The keys of `self.tree` are `0, …, len - 1`. -/
def isLeaf (tree : List (List (Node d))) (n : Node d) : Bool :=
  if n.pre.length + 1 > tree.length - 1 then true
  else !((tree.getD (n.pre.length + 1) []).any fun c => n.pre = c.pre.dropLast)

/-- `LshTree(root)`, `lsh_tree.py:136-160`: the levels. -/
noncomputable def lshTree (E : Env d) (root : Node d) : Except Err (List (List (Node d))) :=
  if root.privateCount < 1 then .error .valueError
  else levels E E.tree.maxDepth.toNat [root]

/-- `self.leaves`, `lsh_tree.py:164-166`. -/
def leaves (tree : List (List (Node d))) : List (Node d) := tree.flatMap fun level => level.filter (isLeaf tree)

/-- The averages of the leaves, `clustering_algorithm.py:297-299`. -/
noncomputable def averages (E : Env d) : List (Node d) → Except Err (List (Point d))
  | [] => .ok []
  | n :: ns => do
    let a ← getPrivateAverage n.points n.privateCount E.pcalc.stdDev (E.sumNoise n.pre)
    let as ← averages E ns
    .ok (a :: as)

/-- `get_private_coreset`, `clustering_algorithm.py:276-308`: points with weights. -/
noncomputable def getPrivateCoreset (E : Env d) (pts : List (Point d)) (privateCount : Option ℤ) : Except Err (List (Point d × ℤ)) := do
  let root ← rootNode E pts privateCount
  let tree ← lshTree E { root with privateCount := max 1 root.privateCount }
  let as ← averages E (leaves tree)
  let clipped ← clipByRadius E.radius as
  .ok (clipped.zip ((leaves tree).map Node.privateCount))

/-- Python's `int(x)` for a float: truncation towards zero. Called in `default_clustering_params.py:49`. -/
noncomputable def pyInt (x : ℝ) : ℤ := if 0 ≤ x then ⌊x⌋ else ⌈x⌉

/-- `default_tree_param`, `default_clustering_params.py:26-67`; `noise` is the draw for the count. -/
noncomputable def defaultTreeParam (k : ℤ) (numPoints : ℕ) (dim : ℕ) (pc : PCalc) (maxDepth : ℤ) (noise : ℤ) :
    Except Err (TreeParam × ℤ) :=
  let privateCount := getPrivateCount numPoints pc.laplaceParam noise
  let lowNoise := pyInt (10 * Real.sqrt dim * pc.stdDev / pc.sensitivity)
  if 2 * k = 0 then .error .zeroDivisionError
  else
    let minNode := max 1 (min lowNoise (Int.fdiv privateCount (2 * k)))
    match mkTreeParam (3 * minNode) minNode maxDepth with
    | .error e => .error e
    | .ok t => .ok (t, privateCount)

/-! ### Privacy parameters -/

/-- `PrivacyCalculatorMultiplier`, `clustering_params.py:69-91`. -/
structure Multipliers where
  gaussian : ℝ
  laplace : ℝ

/-- `get_gaussian_std_dev`, `clustering_params.py:93-100`. -/
def Multipliers.stdDev (m : Multipliers) (alpha sensitivity : ℝ) : ℝ := m.gaussian * alpha * sensitivity

/-- `get_alpha`, `clustering_params.py:102-111`. -/
noncomputable def Multipliers.alpha (m : Multipliers) (stdDev sensitivity : ℝ) : Except Err ℝ :=
  if sensitivity * m.gaussian = 0 then .error .zeroDivisionError else .ok (stdDev / (sensitivity * m.gaussian))

/-- `get_laplace_param`, `clustering_params.py:113-122`. -/
noncomputable def Multipliers.laplaceParam (m : Multipliers) (alpha : ℝ) : Except Err ℝ :=
  if m.laplace * alpha = 0 then .error .zeroDivisionError else .ok (1 / (m.laplace * alpha))

/-- Two calls `builder.compose(event, count)` on a new builder and `builder.build()`. `privacy_calculator.py:31-50`. -/
noncomputable def build2 (e₁ e₂ : DpEvent) (n₁ n₂ : ℤ) : Except Err DpEvent :=
  match Builder.init.compose (.event e₁) (.int n₁) with
  | (_, .error e) => .error e
  | (b, .ok ()) =>
    match b.compose (.event e₂) (.int n₂) with
    | (_, .error e) => .error e
    | (b, .ok ()) => .ok b.build.2

open Classical in
/-- `make_clustering_event`, `privacy_calculator.py:31-49`. The divisions are by checked (positive) numbers. -/
noncomputable def makeClusteringEvent (stdDev : ℝ) (laplaceParam : PyNum) (sensitivity : ℝ) (maxDepth : ℤ) : Except Err DpEvent :=
  let sum : DpEvent := if stdDev = 0 then .nonPrivate else .gaussian (.float (stdDev / sensitivity))
  match laplaceParam.real? with
  | none => build2 sum .nonPrivate 1 1
  | some a => build2 sum (.laplace (.float (1 / a))) 1 (maxDepth + 1)

/-- `make_clustering_event_from_param`, `privacy_calculator.py:52-68`. -/
noncomputable def makeClusteringEventFromParam (m : Multipliers) (sensitivity : ℝ) (maxDepth : ℤ) (alpha : ℝ) : Except Err DpEvent :=
  match m.laplaceParam alpha with
  | .error e => .error e
  | .ok a => makeClusteringEvent (m.stdDev alpha sensitivity) (.float a) sensitivity maxDepth

/-- `DifferentialPrivacyParam`, `clustering_params.py:34-39`; `central` says whether `privacy_model` is `CENTRAL`. -/
structure PrivacyParam where
  epsilon : EReal
  delta : ℝ
  central : Bool

/-- `privacy_param.epsilon == np.inf or privacy_param.delta >= 1`. -/
def PrivacyParam.NonPrivate (p : PrivacyParam) : Prop := p.epsilon = ⊤ ∨ p.delta ≥ 1

/-- The accountant that is used: `PLDAccountant()` (`pld_privacy_accountant.py`), with the answers of `get_epsilon` and `get_delta`. `privacy_calculator.py:142`, `174`. -/
structure Acct (σ : Type) where
  acct : Accountant σ
  fresh : AcctState σ
  getEpsilon : AcctState σ → ℝ → EReal
  getDelta : AcctState σ → ℝ → ℝ

open Classical in
/-- `get_alpha_interval`, `privacy_calculator.py:71-96`. `smallest` is the outcome of `get_smallest_gaussian_noise` (`pld/accountant.py`)
for these parameters, one query and the radius as sensitivity. -/
noncomputable def getAlphaInterval (p : PrivacyParam) (radius : ℝ) (m : Multipliers) (smallest : Except Err ℝ) :
    Except Err Calibration.Bracket :=
  if p.NonPrivate then .error .valueError
  else match smallest with
    | .error e => .error e
    | .ok s => match m.alpha s radius with
      | .error e => .error e
      | .ok a => .ok (.lowerAndGuess a (2 * a))

open Classical in
/-- `PrivacyCalculator.__init__`, `privacy_calculator.py:110-156`. -/
noncomputable def initPCalc {σ : Type} (fuel : ℕ)
    (brentq : (ℝ → Except CalErr EReal) → ℝ → ℝ → ℝ → Except CalErr (ℝ × Bool)) (A : Acct σ) (p : PrivacyParam) (radius : ℝ)
    (maxDepth : ℤ) (m : Multipliers) (smallest : Except Err ℝ) : Except CalErr PCalc :=
  if !p.central then .error (.py .notImplementedError)
  else if p.NonPrivate then
    match mkPCalc 0 radius .inf with
    | .error e => .error (.py e)
    | .ok c => .ok c
  else
    match getAlphaInterval p radius m smallest with
    | .error e => .error (.py e)
    | .ok interval =>
      match Calibration.calibrate fuel brentq A.acct A.fresh (fun s δ => .ok (A.getEpsilon s δ)) (makeClusteringEventFromParam m radius maxDepth)
          p.epsilon.toReal p.delta interval false none with
      | .error e => .error e
      | .ok alpha =>
        match m.laplaceParam alpha with
        | .error e => .error (.py e)
        | .ok a =>
          match mkPCalc (m.stdDev alpha radius) radius (.float a) with
          | .error e => .error (.py e)
          | .ok c => .ok c

open Classical in
/-- `PrivacyCalculator.validate_accounting`, `privacy_calculator.py:158-190`. -/
noncomputable def validateAccounting {σ : Type} (A : Acct σ) (c : PCalc) (p : PrivacyParam) (maxDepth : ℤ) : Except Err Unit :=
  if p.NonPrivate then .ok ()
  else
    match makeClusteringEvent c.stdDev c.laplaceParam c.sensitivity maxDepth with
    | .error e => .error e
    | .ok event =>
      match A.acct.compose A.fresh (.event event) (.int 1) with
      | (_, .error e) => .error e
      | (s, .ok ()) =>
        if A.getEpsilon s p.delta > p.epsilon ∨ A.getDelta s p.epsilon.toReal > p.delta then .error .valueError else .ok ()

/-- The draws of one run. `central_privacy_utils.py:65`, `98`, `lsh.py:50`. -/
structure Draws (d : ℕ) where
  proj : ℕ → Point d
  countNoise : List Bool → ℤ
  sumNoise : List Bool → Point d

/-- The tree parameters and, if they are the default ones, the private count, `clustering_algorithm.py:247-251`. -/
noncomputable def chooseTree (c : PCalc) (k : ℤ) (numPoints dim : ℕ) (maxDepth : ℤ) (tree : Option TreeParam) (noise : ℤ) :
    Except Err (TreeParam × Option ℤ) :=
  match tree with
  | some t => .ok (t, none)
  | none => match defaultTreeParam k numPoints dim c maxDepth noise with
    | .error e => .error e
    | .ok (t, n) => .ok (t, some n)

/-- The part of `private_lsh_clustering` that looks at the data, given the privacy calculator, `clustering_algorithm.py:247-261`:
default tree parameters (if none are given), clipping, coreset. -/
noncomputable def privateCoreset (c : PCalc) (k : ℤ) (pts : List (Point d)) (radius : ℝ) (maxDepth : ℤ) (tree : Option TreeParam)
    (w : Draws d) : Except Err (List (Point d × ℤ)) :=
  match chooseTree c k pts.length d maxDepth tree (w.countNoise []) with
  | .error e => .error e
  | .ok (tp, count) =>
    match clipByRadius radius pts with
    | .error e => .error e
    | .ok clipped => getPrivateCoreset ⟨c, tp, radius, w.proj, w.countNoise, w.sumNoise⟩ clipped count

/-- The depth that is used, `clustering_algorithm.py:233-236`. -/
def chosenDepth : Option TreeParam → ℤ
  | none => 20
  | some t => t.maxDepth

/-- `private_lsh_clustering` up to the coreset, `clustering_algorithm.py:191-261`. The result of the function consists of the k-means
centers of the coreset, and of non-private labels that are "only provided for convenience". -/
noncomputable def privateLshClustering {σ : Type} (fuel : ℕ)
    (brentq : (ℝ → Except CalErr EReal) → ℝ → ℝ → ℝ → Except CalErr (ℝ × Bool)) (A : Acct σ) (k : ℤ) (pts : List (Point d)) (radius : ℝ)
    (p : PrivacyParam) (tree : Option TreeParam) (m : Multipliers) (smallest : Except Err ℝ) (w : Draws d) :
    Except CalErr (List (Point d × ℤ)) :=
  match initPCalc fuel brentq A p radius (chosenDepth tree) m smallest with
  | .error e => .error e
  | .ok c =>
    match validateAccounting A c p (chosenDepth tree) with
    | .error e => .error (.py e)
    | .ok () =>
      match privateCoreset c k pts radius (chosenDepth tree) tree w with
      | .error e => .error (.py e)
      | .ok r => .ok r

end Verif.Clustering
