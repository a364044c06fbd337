import Verif.Model.Float
import Verif.Model.Containers

/-!
# The data of StreamingEntropy.ipynb

The notebook /repo/tools/python/kml/notebooks/statistics/summary/StreamingEntropy.ipynb draws its observations with
`np.random.seed(42); np.random.uniform(0, 1, 1000)`. NumPy's legacy generator is MT19937 (Matsumoto and Nishimura 1998),
seeded by `init_genrand(42)`; a uniform double takes two 32-bit outputs `a`, `b` and is `((a >> 5) 2^26 + (b >> 6)) / 2^53`.
This file is that generator, written from its published definition; nothing here is part of KML.
-/

namespace KML.Notebook

/-- `init_genrand`: from word `i - 1` of the state, words `i`, `i + 1`, ... -/
def initFrom : (fuel i prev : ℕ) → List ℕ
  | 0, _, _ => []
  | n + 1, i, prev =>
    let x := (1812433253 * (prev ^^^ (prev >>> 30)) + i) % 2 ^ 32
    x :: initFrom n (i + 1) x

/-- The 624 words of the state after seeding. -/
def init (seed : ℕ) : List ℕ := seed % 2 ^ 32 :: initFrom 623 1 (seed % 2 ^ 32)

/-- The upper bit of `u` and the lower bits of `v`, multiplied by the matrix. -/
def twist (u v : ℕ) : ℕ :=
  let y := (u &&& 0x80000000) ||| (v &&& 0x7fffffff)
  (y >>> 1) ^^^ (if y % 2 = 1 then 0x9908b0df else 0)

/-- The next 624 words. Word `i` is word `i + 397`, counted over the old state and then over the new one, xored with the
twist of words `i` and `i + 1`. -/
def next (mt : List ℕ) : List ℕ :=
  let first := List.zipWith (· ^^^ ·) (mt.drop 397) (List.zipWith twist mt mt.tail)
  let tw := List.zipWith twist mt (mt.tail ++ first.take 1)
  let second := List.zipWith (· ^^^ ·) first (tw.drop 227)
  let third := List.zipWith (· ^^^ ·) second (tw.drop 454)
  first ++ (second ++ third)

/-- The tempering of an output word. -/
def temper (y : ℕ) : ℕ :=
  let y := y ^^^ (y >>> 11)
  let y := y ^^^ ((y <<< 7) &&& 0x9d2c5680)
  let y := y ^^^ ((y <<< 15) &&& 0xefc60000)
  y ^^^ (y >>> 18)

/-- The outputs of the next `blocks` states. -/
def words : (blocks : ℕ) → (mt : List ℕ) → List ℕ
  | 0, _ => []
  | n + 1, mt => (next mt).map temper ++ words n (next mt)

/-- Doubles in [0, 1) from pairs of outputs, as numerators over `2^53`. -/
def numerators : List ℕ → List ℕ
  | a :: b :: rest => ((a >>> 5) * 2 ^ 26 + (b >>> 6)) :: numerators rest
  | _ => []

/-- The numerators of `np.random.seed(42); np.random.uniform(0, 1, 1000)`: 2000 outputs lie in four states. -/
def drawn : List ℕ := (numerators (words 4 (init 42))).take 1000

/-- `uniform_data` of the notebook. -/
def uniformData : List ℚ := drawn.map fun n : ℕ => (n : ℚ) / 2 ^ 53

/-- The first 262 numerators. The first double is 0.3745401188473625. -/
def first262 : List ℕ :=
  [3373557479352566, 8563273192166996, 6593215287158609, 5392236252703920, 1405290981918817, 1405073727315923,
  523170668234071, 7801821134698421, 5414362685787053, 6377750795027074, 185408641680372, 8736171297559461,
  7497976733832182, 1912580679453734, 1637733709121102, 1651960964467986, 2740370504045876, 4726585739918435,
  3890614850002349, 2623158894550663, 5511080937354535, 1256448997706015, 2631405060562986, 3299894121880476,
  4107913221949422, 7072236334299694, 1798501541848093, 4631812050441235, 5335996063151895, 418388122833975,
  5472277537268362, 1535944759791533, 585932659856724, 8546801103982729, 8697640128663200, 7281395991489183,
  2743716914682229, 879752192487278, 6163023206469473, 3964541213583726, 1099222697943798, 4460157095719180,
  309744261760640, 8190430047924785, 2330882857409560, 5967470225882486, 2807643772247055, 4684356292767400,
  4924328420660028, 1665020914045079, 8733241936609254, 6981775788903512, 8462254166286915, 8059888243893775,
  5385404243556861, 8303504922665140, 797069598532215, 1765256692323731, 407371202968954, 2930315112795515,
  3500893794025851, 2444094796768525, 7464603874809164, 3213348298320867, 2530433106287202, 4888171755773831,
  1269332574167634, 7225548047203260, 671492502192893, 8889087279861800, 6955762510486482, 1789871738619946,
  49738809240304, 7345023570648407, 6366804940712454, 6566312820679622, 6946985691873477, 666934931916855,
  3228772242994159, 1043655706602288, 7774144534311043, 5614170423442636, 2980464442848048, 572482725328839,
  2801079736394936, 2928990975813516, 6571708225781034, 5742607180845227, 7991301953730200, 4253333921996283,
  1077209202886782, 6424337915922858, 6852542522920208, 5055535555651079, 6944255008716486, 4447715327567724,
  4708358751238147, 3850947141930333, 228955139465581, 971799580807034, 283088937894669, 5732275382044531,
  2831466958474063, 4580797550441822, 8174632067575015, 2245424780602467, 3696400758524954, 6805399652003656,
  2060830665702248, 693373386439933, 2609849070745011, 1452152258402652, 8373972001314474, 7278901280553624,
  5705193843590831, 7849419178474956, 7238834532101849, 1680473695355285, 8039456746011294, 4857963039432985,
  7272774363841695, 8071272888850775, 2864320662771618, 991259612588502, 2053057426177044, 3847044955408489,
  7368021989984207, 7752771868039316, 62619224939403, 4600402723137622, 3759704076482372, 2000569304944115,
  1079651247317203, 3040967120256010, 8492975582368892, 2911153208427450, 4672850501533463, 6332231842629434,
  3275284283552540, 8753034851254886, 8668954557730068, 2267853307315196, 4478816371694966, 2710070887949337,
  2565615088676782, 332248084721418, 5490467414740416, 4527730123400931, 463679369893901, 2509824225008219,
  8180931811185510, 2157781683079897, 1305096983915856, 4408598537602987, 8877950035700123, 2180240061164515,
  6054058801679158, 6860059631584946, 2140448709146822, 6559189752506948, 3312695958935165, 5695304606090873,
  5706328338621807, 4825829335107255, 813257949544802, 7523736015754675, 2889329962149186, 1680009387868967,
  367269824624028, 5322290477516843, 6102957215024862, 149409880356757, 4612524213071319, 2040092577564850,
  5811199876955163, 1570553169385607, 6223413879708958, 3483402322980200, 8437313656443053, 1238678545623068,
  3072052582997118, 1022078615951070, 8328899669422422, 7902370369928116, 2323331636922628, 5944607807580002,
  7360883192610185, 5000804336470271, 4770668294641357, 2178411774355950, 838595180795619, 8081401106379079,
  8110244853436882, 5702470974127215, 3053708881268851, 3145400220199578, 6538827449695011, 8080450864865350,
  7990164179531616, 7024494435439514, 5782906964761033, 757865429997337, 1455822033137750, 8093456617245505,
  5462227374219139, 82839676467121, 913974405280343, 5976292640229410, 45590694247470, 1448430160884045,
  4942554578633915, 6232037909016498, 5872344970711822, 2020038357034431, 6414740151763545, 2136949804089158,
  2930939918753100, 6723796827849623, 5851372964153302, 7649124470111763, 5923250353435721, 5118868828426154,
  843747298969230, 3312089507273415, 2388730568538384, 2197663334008602, 8764099943621347, 3540709532658824,
  8034841066985564, 5684791361720800, 7159023780920052, 4527352450422265, 5196288239663725, 4436205004712023,
  1758592494187951, 6507270154169484, 2528972613729144, 219018754719698, 5813897582650999, 1595271179561842,
  8470897860098338, 8592224767853840, 8240365853782696, 3334093169076733, 139220824879632, 8361550265102389,
  3856739941615620, 8706852565681929, 8679517139491850, 7683226131572625, 2652159841208483, 3468651974065710,
  7666357593369362, 2854579648654645, 1526654941634976, 5015219916253695, 8432132584143208, 6269279065888341,
  5134654546385706, 875288042270409, 5539492633985086, 8917612300812570]

set_option maxRecDepth 100000 in
theorem drawn_prefix : drawn.take 262 = first262 := by decide +kernel

end KML.Notebook
