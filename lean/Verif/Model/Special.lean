import Verif.Base.FloatOps
import Verif.Base.Float32
import Verif.Base.Res

/-!
# The table-driven special functions (include/distributions/special.hpp, src/special.cc)

These functions take the bits of their argument apart.  An argument is its bit pattern
`b : BitVec 32`; `toF b` is the same number as an operand of the arithmetic in `F`.  Library
functions (`log2`, `lgammaf`) are parameters.  `double` intermediate results are operations
of `F` as well.
-/

namespace Dist.Special

open FloatOps FloatNotation

variable {F : Type} [FloatOps F]

/-- `table[i]` with an `int` index: a negative index is out of range too. -/
def getAtInt {α : Type} (l : List α) (i : Int) : Res α :=
  if 0 ≤ i then getAt l i.toNat else .ub

/-- A literal `m * 10^e` of the source tables. -/
def decimal (t : Int × Int) : F :=
  if 0 ≤ t.2 then lit (t.1 * 10 ^ t.2.toNat) 1 else lit t.1 (10 ^ (-t.2).toNat)

/-! ## fast_log -/

/-- `detail::FastLog` (special.hpp:53-72). -/
structure FastLog (F : Type) where
  n : Nat
  table : List F

/-- The number whose logarithm goes into entry `i` of the table (special.cc:39-41). -/
def FastLog.node (n i : Nat) : F :=
  lit 1 1 + (ofInt (i : Int) * ofInt ((2 ^ (23 - n) : Nat) : Int)) / ofInt ((2 ^ 23 : Nat) : Int)

/-- `FastLog::FastLog(int N)` (special.cc:35-44). -/
def FastLog.new (log2 : F → F) (n : Nat) : FastLog F :=
  ⟨n, (List.range (2 ^ n)).map fun i => log2 (FastLog.node n i)⟩

/-- `FastLog::log` (special.hpp:57-67).  A shift by a negative amount (`N_ > 23`) is undefined. -/
def FastLog.log (t : FastLog F) (b : BitVec 32) : Res F :=
  if 23 < t.n then .ub
  else do
    let exp : Int := (BitVec.sshiftRight b 23 &&& 255#32).toInt - 127
    let man : Nat := ((b &&& 0x7FFFFF#32) >>> (23 - t.n)).toNat
    let v ← getAt t.table man
    return (ofInt exp + v) * lit 69314718055994529 (10 ^ 17)

/-- `fast_log` (special.hpp:74-85): the table has `2^14` entries. -/
def fastLog (log2 : F → F) (b : BitVec 32) : Res F := (FastLog.new log2 14).log b

/-! ## Tables -/

/-- `LogTable256` (special.cc:46-52). -/
def logTable256 : List Int :=
  [-1, 0, 1, 1, 2, 2, 2, 2, 3, 3, 3, 3, 3, 3, 3, 3] ++
  List.replicate 16 4 ++ List.replicate 16 5 ++ List.replicate 16 5 ++
  List.replicate 16 6 ++ List.replicate 16 6 ++ List.replicate 16 6 ++ List.replicate 16 6 ++
  List.replicate 16 7 ++ List.replicate 16 7 ++ List.replicate 16 7 ++ List.replicate 16 7 ++
  List.replicate 16 7 ++ List.replicate 16 7 ++ List.replicate 16 7 ++ List.replicate 16 7

/-- `lgamma_approx_coeff5` (src/special.cc:144-211): `(m, e)` stands for the literal `m * 10^e`. -/
def lgammaCoeff5 : List (Int × Int) := [
  (-329075828194618, -16), (311402469873428, -15), (-126565241813660, -14),
  (306901979446411, -14), (-399838900566101, -14), (191650712490082, -14),
  (-127542507834733, -17), (245208702981472, -16), (-205080837011337, -15),
  (106328070163727, -14), (-205143237113953, -14), (113884496688843, -14),
  (-590835916227661, -19), (230360287241638, -17), (-394700765609741, -16),
  (431111842393875, -15), (-811912357807159, -15), (138451874256134, -15),
  (-313346959046612, -20), (246525305556133, -18), (-857665389776230, -17),
  (193337082862854, -15), (128577262163162, -15), (-139292562007904, -14),
  (-179876764150322, -21), (284436719084624, -19), (-199566851370037, -17),
  (915164873003960, -16), (938368678092957, -15), (-404415321350098, -14),
  (-107678470584460, -22), (341422332894581, -20), (-481184630189091, -18),
  (445219948887825, -16), (168803942203522, -14), (-896704387664795, -14),
  (-658549492715821, -24), (418171737237572, -21), (-118131858471315, -18),
  (219584535807371, -16), (240899610519409, -14), (-184496879577637, -13),
  (-407141056979476, -25), (517405069899723, -22), (-292657005047658, -19),
  (109044071286917, -16), (311593461036682, -14), (-370601158142090, -13),
  (-253081214839079, -26), (643459463489648, -23), (-728322174836649, -20),
  (543360086157918, -17), (381594920158386, -14), (-739302520751953, -13),
  (-157745385222056, -27), (802270583299958, -24), (-181666780463274, -20),
  (271216244436800, -17), (451252317428589, -14), (-147321868896484, -12),
  (-984566025713160, -29), (100155668480983, -24), (-453650557119545, -21),
  (135492335539311, -17), (520738172531128, -14), (-293757507324219, -12),
  (-614934537701393, -30), (125114562807283, -25), (-113348136210334, -21),
  (677172385621816, -18), (590138435363770, -14), (-586281677246094, -12),
  (-384203159916016, -31), (156343210946930, -26), (-283289747216031, -22),
  (338513898896053, -18), (659495878219604, -14), (-117098315429688, -11),
  (-240086050186704, -32), (195397761556040, -27), (-708123648607284, -23),
  (169238890521228, -18), (728832006454468, -14), (-234003955078125, -11),
  (-150040998841287, -33), (244227686305946, -28), (-177018322222722, -23),
  (846149268909357, -19), (798157405853271, -14), (-467780566406250, -11),
  (-937716337755834, -35), (305272410607992, -29), (-442530068145430, -24),
  (423063320340589, -19), (867477416992188, -14), (-935299121093750, -11),
  (-586060190297109, -36), (381582889963464, -30), (-110630546390489, -24),
  (211528840736719, -19), (936794853210449, -14), (-187030156250000, -10),
  (-366283737740039, -37), (476973847894002, -31), (-276573920016121, -25),
  (105763720057439, -19), (100611085891724, -13), (-374027148437500, -10),
  (-228926113353121, -38), (596214332017297, -32), (-691431720906133, -26),
  (528816826772527, -20), (107542629241943, -13), (-748017734375000, -10),
  (-143078438741200, -39), (745266053865244, -33), (-172857539913751, -26),
  (264407958638913, -20), (114474134445190, -13), (-149599546875000, -9),
  (-894239086574533, -41), (931581404108818, -34), (-432143388998454, -27),
  (132203877001302, -20), (121405620574951, -13), (-299194718750000, -9),
  (-558899043923094, -42), (116447602812181, -34), (-108035786263241, -27),
  (661019100789417, -21), (128337106704712, -13), (-598384750000000, -9),
  (-349311782081312, -43), (145559453028129, -35), (-270089380954809, -28),
  (330509465129580, -21), (135268573760986, -13), (-119676450000000, -8),
  (-218319826185001, -44), (181949291041612, -36), (-675223367683727, -29),
  (165254718353935, -21), (142200050354004, -13), (-239352350000000, -8),
  (-136449879610682, -45), (227436598024797, -37), (-168805831333020, -29),
  (826273591769677, -22), (149131526947021, -13), (-478704150000000, -8),
  (-852811747566763, -47), (284295727809473, -38), (-422014578332550, -30),
  (413136760357702, -22), (156062994003296, -13), (-957407700000000, -8),
  (-533007296311479, -48), (355369659761841, -39), (-105503637965693, -30),
  (206568380178851, -22), (162994461059570, -13), (-191481460000000, -7),
  (-333129560194674, -49), (444212074702302, -40), (-263759094914231, -31),
  (103284190089425, -22), (169925937652588, -13), (-382962880000000, -7),
  (-208205975121671, -50), (555265093377877, -41), (-659397737285579, -32),
  (516420950447127, -23), (176857414245605, -13), (-765925680000000, -7),
  (-130128734451045, -51), (694081366722347, -42), (-164849434321395, -32),
  (258210475223564, -23), (183788890838623, -13), (-153185120000000, -6),
  (-813304660383952, -53), (867601708402933, -43), (-412123585803487, -33),
  (129105237611782, -23), (190720348358154, -13), (-306370240000000, -6),
  (-508315412739970, -54), (108450213550367, -43), (-103030896450872, -33),
  (645526188058909, -24), (197651824951172, -13), (-612740480000000, -6),
  (-317702387831723, -55), (135562766937958, -44), (-257577241127179, -34),
  (322763094029455, -24), (204583301544189, -13), (-122548096000000, -5)]

/-- `log_factorial_table` (src/special.cc:213-230), same encoding. -/
def logFactorialTable : List (Int × Int) := [
  (0, -1), (0, -1), (6931471805599453, -16), (1791759469228055, -15), (31780538303479458, -16),
  (4787491742782046, -15), (6579251212010101, -15), (8525161361065415, -15),
  (1060460290274525, -14), (12801827480081469, -15), (15104412573075516, -15),
  (17502307845873887, -15), (19987214495661885, -15), (22552163853123425, -15),
  (2519122118273868, -14), (2789927138384089, -14), (30671860106080672, -15),
  (3350507345013689, -14), (3639544520803305, -14), (39339884187199495, -15),
  (42335616460753485, -15), (453801388984769, -13), (4847118135183522, -14),
  (5160667556776437, -14), (5478472939811232, -14), (5800360522298052, -14),
  (61261701761001994, -15), (6455753862700634, -14), (6788974313718154, -14),
  (71257038967168, -12), (7465823634883017, -14), (780922235533153, -13),
  (8155795945611503, -14), (8505446701758152, -14), (8858082754219768, -14),
  (9213617560368708, -14), (957196945421432, -13), (9933061245478743, -14),
  (10296819861451381, -14), (10663176026064346, -14), (11032063971475739, -14),
  (11403421178146169, -14), (11777188139974506, -14), (12153308151543864, -14),
  (1253172711493569, -13), (12912393363912722, -14), (1329525750356163, -13),
  (13680272263732635, -14), (14067392364823428, -14), (14456574394634487, -14),
  (14847776695177305, -14), (15240959258449735, -14), (15636083630307877, -14),
  (1603311282166309, -13), (16432011226319517, -14), (16832744544842765, -14),
  (1723527971391628, -13), (17639584840699735, -14), (18045629141754378, -14),
  (18453382886144948, -14), (1886281734236716, -13), (19273904728784487, -14),
  (19686618167288998, -14), (20100931639928152, -14)]

/-- `lgamma_nu_func_approx_coeff3` (src/special.cc:232-269), same encoding. -/
def lgammaNuCoeff3 : List (Int × Int) := [
  (115215471170606, -12), (-781833294806814, -13), (217521294416039, -13),
  (-400207969046817, -14), (173651454936872, -14), (-464103368554928, -14),
  (496114611050933, -14), (-262079988783550, -14), (219247677881418, -16),
  (-231491872658262, -15), (980650507531970, -15), (-133034436181266, -14),
  (259229669577681, -18), (-111194941534111, -16), (196528569696233, -15),
  (-330475312808754, -15), (359607301092398, -20), (-623898142038213, -18),
  (451853154674520, -16), (454302652797463, -15), (543533760564972, -22),
  (-378487592418411, -19), (110431898756058, -16), (117076361533367, -14),
  (842086542619799, -24), (-234762247706483, -20), (274494910959480, -17),
  (186974602903652, -14), (131295320678586, -25), (-146446291422155, -21),
  (685246648253346, -18), (256435212443809, -14), (205039288544523, -27),
  (-914851640744505, -23), (171249747326460, -18), (325786403536974, -14),
  (320331056351859, -29), (-571713887896017, -24), (428085671610666, -19),
  (395110239852806, -14), (500500544173177, -31), (-357310494327578, -25),
  (107018999352172, -19), (464427237476749, -14), (782025560546465, -33),
  (-223317388565474, -26), (267545986354366, -20), (533742525496218, -14),
  (122191238756488, -34), (-139573107066068, -27), (668864021171837, -21),
  (603057386030030, -14), (190923698525687, -36), (-872331476335181, -29),
  (167215943241429, -21), (672372140489075, -14), (298318428529838, -38),
  (-545207321682807, -30), (418039894513541, -22), (741686859742537, -14),
  (466122520997206, -40), (-340754560016380, -31), (104509969294582, -22),
  (811001581547534, -14), (728316485111643, -42), (-212971617747160, -32),
  (261274939325342, -23), (880316297124324, -14), (113799534770463, -43),
  (-133107347493960, -33), (653187647875674, -24), (949630979931091, -14)]

/-! ## fast_lgamma and fast_lgamma_nu -/

/-- The integer base-2 logarithm both functions inline (special.hpp:128-144 and 253-269). -/
def intLog2 (b : BitVec 32) : Res Int :=
  let c := (BitVec.sshiftRight b 23).toInt
  if c ≠ 0 then .ok (c - 127)
  else
    let t := (BitVec.sshiftRight b 16).toNat
    if t ≠ 0 then do
      let v ← getAt logTable256 t
      return v - 133
    else
      let t := (BitVec.sshiftRight b 8).toNat
      if t ≠ 0 then do
        let v ← getAt logTable256 t
        return v - 141
      else do
        let v ← getAtInt logTable256 b.toInt
        return v - 149

/-- `fast_lgamma` (special.hpp:114-171).  The literal `4294967295.0f` is the float `2^32`. -/
def fastLgamma (toF : BitVec 32 → F) (lgammaf : F → F) (b : BitVec 32) : Res F :=
  if (F32.val b).lt (.fin (5 / 2)) || F32.Val.le (.fin 4294967296) (F32.val b) then
    .ok (lgammaf (toF b))
  else do
    let c ← intLog2 b
    let pos := c * 6
    let a5 ← getAtInt lgammaCoeff5 pos
    let a4 ← getAtInt lgammaCoeff5 (pos + 1)
    let a3 ← getAtInt lgammaCoeff5 (pos + 2)
    let a2 ← getAtInt lgammaCoeff5 (pos + 3)
    let a1 ← getAtInt lgammaCoeff5 (pos + 4)
    let a0 ← getAtInt lgammaCoeff5 (pos + 5)
    let y := toF b
    let sum := decimal a0 + decimal a1 * y
    let y2 := y * y
    let sum := sum + decimal a2 * y2
    let y3 := y2 * y
    let sum := sum + decimal a3 * y3
    let y4 := y3 * y
    let sum := sum + decimal a4 * y4
    let y5 := y4 * y
    return sum + decimal a5 * y5

/-- `poly_eval_3` (special.hpp:224-235), reading from `coeff + pos`. -/
def polyEval3 (pos : Int) (x : F) : Res F := do
  let a0 ← getAtInt lgammaNuCoeff3 (pos + 3)
  let a1 ← getAtInt lgammaNuCoeff3 (pos + 2)
  let a2 ← getAtInt lgammaNuCoeff3 (pos + 1)
  let a3 ← getAtInt lgammaNuCoeff3 pos
  return decimal a0 + x * decimal a1 + x * x * decimal a2 + x * x * x * decimal a3

/-- `fast_lgamma_nu` (special.hpp:239-273).  `/` on `int` truncates. -/
def fastLgammaNu (toF : BitVec 32 → F) (lgammaf : F → F) (b : BitVec 32) : Res F :=
  if (F32.val b).lt (.fin (1 / 16)) || F32.Val.le (.fin 4294967296) (F32.val b) then
    let half : F := toF b * lit 1 2
    .ok (lgammaf (half + lit 1 2) - lgammaf half)
  else do
    let c ← intLog2 b
    let pos := Int.tdiv (c + 4) 2 * 4
    polyEval3 pos (toF b)

/-- `fast_log_factorial` (special.hpp:208-214) on `uint32_t`: `n + 1` wraps. -/
def fastLogFactorial (toF : BitVec 32 → F) (lgammaf : F → F) (n : Nat) : Res F :=
  if n < 64 then do
    let v ← getAt logFactorialTable n
    return decimal v
  else fastLgamma toF lgammaf (F32.ofNat ((n + 1) % 2 ^ 32))

end Dist.Special
