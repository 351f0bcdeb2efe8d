import Verif.Model.Plane
import Mathlib.Data.Rat.Cast.Defs

/-!
# The quadrature tables of the Laplace kernel, and the flat arrays

The literals of the constructor of `LaplaceTable`, its `switch`, and the arrays as the code lays them out.
-/

namespace Dashmm.Lap

/-- What the `switch` of the constructor of `LaplaceTable` sets, src/laplace_table.cc:39-187. -/
structure PlaneTable where
  s : ℕ
  nexp : ℕ
  lam : List ℚ
  wt : List ℚ
  m : List ℕ
  sm : List ℕ
  f : List ℕ
  smf : List ℕ

/-- `case 3` of the `switch`, src/laplace_table.cc:40-66. -/
def table3 : PlaneTable where
  s := 9
  nexp := 57
  lam :=
    [0.99273996739714473469540223504736787e-1, 0.47725674637049431137114652301534079e0,
     0.10553366138218296388373573790886439e1, 0.17675934335400844688024335482623428e1,
     0.25734262935147067530294862081063911e1, 0.34482433920158257478760788217186928e1,
     0.43768098355472631055818055756390095e1, 0.53489575720546005399569367000367492e1,
     0.63576578531337464283978988532908261e1]
  wt :=
    [0.24776441819008371281185532097879332e0, 0.49188566500464336872511239562300034e0,
     0.65378749137677805158830324216978624e0, 0.76433038408784093054038066838984378e0,
     0.84376180565628111640563702167128213e0, 0.90445883985098263213586733400006779e0,
     0.95378613136833456653818075210438110e0, 0.99670261613218547047665651916759089e0,
     0.10429422730252668749528766056755558e1]
  m :=
    [4, 8, 12, 16, 20, 20, 24, 8, 2]
  sm :=
    [0, 2, 6, 12, 20, 30, 40, 52, 56, 57]
  f :=
    [2, 3, 4, 5, 5, 4, 5, 4, 1]
  smf :=
    [0, 4, 16, 40, 80, 130, 170, 230, 246, 247]

/-- `case 6` of the `switch`, src/laplace_table.cc:67-114. -/
def table6 : PlaneTable where
  s := 18
  nexp := 284
  lam :=
    [0.52788527661177607475107009804560221e-1, 0.26949859838931256028615734976483509e0,
     0.63220353174689392083962502510985360e0, 0.11130756427760852833586113774799742e1,
     0.16893949614021379623807206371566281e1, 0.23437620046953044905535534780938178e1,
     0.30626998290780611533534738555317745e1, 0.38356294126529686394633245072327554e1,
     0.46542473432156272750148673367220908e1, 0.55120938659358147404532246582675725e1,
     0.64042126837727888499784967279992998e1, 0.73268800190617540124549122992902994e1,
     0.82774009925823861522076185792684555e1, 0.92539718060248947750778825138695538e1,
     0.10255602723746401139237605093512684e2, 0.11282088297877740146191172243561596e2,
     0.12334067909676926788620221486780792e2, 0.13414920240172401477707353478763252e2]
  wt :=
    [0.13438265914335215112096477696468355e0, 0.29457752727395436487256574764614925e0,
     0.42607819361148618897416895379137713e0, 0.53189220776549905878027857397682965e0,
     0.61787306245538586857435348065337166e0, 0.68863156078905074508611505734734237e0,
     0.74749099381426187260757387775811367e0, 0.79699192718599998208617307682288811e0,
     0.83917454386997591964103548889397644e0, 0.87570092283745315508980411323136650e0,
     0.90792943590067498593754180546966381e0, 0.93698393742461816291466902839601971e0,
     0.96382546688788062194674921556725167e0, 0.98932985769673820186653756536543369e0,
     0.10143828459791703888726033255807124e1, 0.10400365437416452252250564924906939e1,
     0.10681548926956736522697610780596733e1, 0.11090758097553685690428437737864442e1]
  m :=
    [6, 8, 12, 16, 20, 26, 30, 34, 38, 44, 48, 52, 56, 60, 60, 52, 4, 2]
  sm :=
    [0, 3, 7, 13, 21, 31, 44, 59, 76, 95, 117, 141, 167, 195, 225, 255, 281, 283, 284]
  f :=
    [3, 5, 6, 7, 7, 8, 9, 9, 10, 10, 11, 11, 11, 11, 11, 11, 7, 1]
  smf :=
    [0, 9, 29, 65, 121, 191, 295, 430, 583, 773, 993, 1257, 1543, 1851, 2181, 2511, 2797, 2811, 2812]

/-- `case 9` of the `switch`, src/laplace_table.cc:115-182. -/
def table9 : PlaneTable where
  s := 27
  nexp := 699
  lam :=
    [0.35834993247954083361861421508365311e-1, 0.18605352495124757861155728733137948e0,
     0.44642194330546725034025712375296280e0, 0.80414605853435716653621057048439980e0,
     0.12462239924414626468518463298096322e1, 0.17611257461239471222569363817456178e1,
     0.23391453785205094106913747964426875e1, 0.29722080942457780317056403873721138e1,
     0.36535650947301854252202701900387183e1, 0.43775326951870896508012265258003026e1,
     0.51393010711012010460763121955096722e1, 0.59347963207816585295972799940500408e1,
     0.67605758319435445002909546019509435e1, 0.76137438021356000916739503736607730e1,
     0.84918804165657331139982488821260631e1, 0.93929821745587691594892021385021508e1,
     0.10315412711899460518338855763431638e2, 0.11257864229560141211550217121839523e2,
     0.12219330080395609527954547957051545e2, 0.13199089643751765521528795943595469e2,
     0.14196707628360135444722800457384437e2, 0.15212051628819105886236684455070645e2,
     0.16245334166526408381514556822367013e2, 0.17297187705846923222452460322529078e2,
     0.18368783996172027173088281415402889e2, 0.19462114300213894324542707181535661e2,
     0.20582673852051787122263704077340662e2]
  wt :=
    [0.91634452557743162337544617912499234e-1, 0.20725798653776011937210910218709614e0,
     0.31128301536359448409285732850548811e0, 0.40197254484414085551335915624804329e0,
     0.48025776040426659818649568478576839e0, 0.54793227641803410321585943165700883e0,
     0.60676658418922713167376059573143721e0, 0.65823842224192508076896501734154299e0,
     0.70353143374483517735740178977721371e0, 0.74360437862720618618084245099453256e0,
     0.77925510412986809249957786960294470e0, 0.81116302338313539532776985652162693e0,
     0.83991454783642205406124503497267142e0, 0.86601910131774351153666202662861906e0,
     0.88992107452719526605733335600234568e0, 0.91201046747319902685546821885509416e0,
     0.93263337746385499560375365035724826e0, 0.95210285562789409574691035231808200e0,
     0.97071063776060639849418976154993288e0, 0.98874065527360133209811010601697490e0,
     0.10064860790234053666836189222522080e1, 0.10242732841383590525197178067173809e1,
     0.10424992963077313046227345694205724e1, 0.10616963916554709168593717549811117e1,
     0.10826735650889751649827985602314584e1, 0.11072236156410122376314575376454741e1,
     0.11468295974452529240039666547090746e1]
  m :=
    [6, 10, 14, 18, 22, 26, 30, 34, 40, 44, 48, 54, 58, 62, 66, 72, 76, 80, 84, 90, 92, 96, 98, 96, 76, 4, 2]
  sm :=
    [0, 3, 8, 15, 24, 35, 48, 63, 80, 100, 122, 146, 173, 202, 233, 266, 302, 340, 380, 422, 467, 513, 561, 610, 658,
     696, 698, 699]
  f :=
    [4, 6, 8, 8, 10, 10, 12, 12, 14, 14, 14, 16, 16, 16, 16, 16, 18, 18, 18, 18, 18, 18, 18, 16, 16, 12, 2]
  smf :=
    [0, 12, 42, 98, 170, 280, 410, 590, 794, 1074, 1382, 1718, 2150, 2614, 3110, 3638, 4214, 4898, 5618, 6374, 7184,
     8012, 8876, 9758, 10526, 11134, 11158, 11160]

/-- A `case` of the `switch`: the label, what it assigns, whether it ends with a `break`. -/
structure SwitchCase where
  label : ℕ
  table : PlaneTable
  brk : Bool

/-- The cases in their order: only `case 3` has a `break`, src/laplace_table.cc:39-187. -/
def switchCases : List SwitchCase := [⟨3, table3, true⟩, ⟨6, table6, false⟩, ⟨9, table9, false⟩]

/-- Running the cases from one on: each assigns all members, the arrays they pointed to before are lost. -/
def runCases : List SwitchCase → Option PlaneTable → List PlaneTable → Option PlaneTable × List PlaneTable
  | [], cur, lost => (cur, lost)
  | c :: cs, cur, lost =>
    let lost := lost ++ cur.toList
    if c.brk then (some c.table, lost) else runCases cs (some c.table) lost

/-- The `switch` of the constructor, src/laplace_table.cc:39-187: the table it leaves (`none`: the members are not
initialised, and the constructor goes on to read them) and the tables whose arrays are lost. -/
def construct (nDigits : ℕ) : Option PlaneTable × List PlaneTable :=
  runCases (switchCases.dropWhile fun c => c.label ≠ nDigits) none []

namespace PlaneTable

variable (T : PlaneTable)

/-- The table as functions. -/
noncomputable def rule : Rule where
  s := T.s
  lam k := ((T.lam.getD k 0 : ℚ) : ℝ)
  wt k := ((T.wt.getD k 0 : ℚ) : ℝ)
  m k := T.m.getD k 0
  f k := T.f.getD k 0

/-- `xs_` as filled by `generate_xs`, src/laplace_table.cc:402-416: the values in the order of the loops. -/
noncomputable def xsArr : List ℂ :=
  (List.range T.s).flatMap fun k => (List.range (T.rule.m k / 2)).flatMap fun j =>
    (List.range 7).map fun i => T.rule.xs k (j + 1) ((i : ℤ) - 3)

/-- `ys_` as filled by `generate_ys`, src/laplace_table.cc:418-432. -/
noncomputable def ysArr : List ℂ :=
  (List.range T.s).flatMap fun k => (List.range (T.rule.m k / 2)).flatMap fun j =>
    (List.range 7).map fun i => T.rule.ys k (j + 1) ((i : ℤ) - 3)

/-- `zs_` as filled by `generate_zs`, src/laplace_table.cc:434-442. -/
noncomputable def zsArr : List ℝ :=
  (List.range T.s).flatMap fun k => (List.range 4).map fun i => T.rule.zs k i

/-- `lambdaknm_` as filled by `generate_lambdaknm`, src/laplace_table.cc:444-463. -/
noncomputable def lamArr (p : ℕ) : List ℝ :=
  (List.range T.s).flatMap fun k => (List.range (p + 1)).flatMap fun n =>
    (List.range (n + 1)).map fun m => T.rule.lamknm k n m

/-- `ealphaj_` as filled by `generate_ealphaj`, src/laplace_table.cc:465-478. -/
noncomputable def eaArr : List ℂ :=
  (List.range T.s).flatMap fun k => (List.range (T.rule.m k / 2)).flatMap fun j =>
    (List.range (T.rule.f k)).map fun i => T.rule.ealpha k (j + 1) (i + 1)

/-- An exponential expansion as the operators fill it, `offset++` in the loops over `k` and `j`,
src/laplace.cc:318-380. -/
noncomputable def flat (W : Wave) : List ℂ :=
  (List.range T.s).flatMap fun k => (List.range (T.rule.m k / 2)).map fun j => W k (j + 1)

/-- `a[i]` with `i` an `int`: `none` if out of range. -/
def at? {α : Type} (a : List α) (i : ℤ) : Option α := if 0 ≤ i then a[i.toNat]? else none

/-- `lap_e_to_e(M, W, x, y, z)` on arrays, src/laplace.cc:639-661: what is added to `M`; `none` if an array is read
out of range. -/
noncomputable def eToEArr (W : List ℂ) (x y z : ℤ) : Option (List ℂ) :=
  ((((List.range T.s).flatMap fun k => (List.range (T.rule.m k / 2)).map fun j => (k, j)).zipIdx).mapM
    fun ((k, j), offset) => do
      let factorZ ← at? T.zsArr (4 * k + z)
      let sidx : ℤ := ((T.sm.getD k 0 + j : ℕ) : ℤ) * 7 + 3
      let factorX ← at? T.xsArr (sidx + x)
      let factorY ← at? T.ysArr (sidx + y)
      let w ← W[offset]?
      some (w * (factorZ : ℂ) * factorY * factorX) : Option (List ℂ))

end PlaneTable

/-- The rule of the three-digit table. -/
noncomputable def rule3 : Rule := table3.rule

end Dashmm.Lap
