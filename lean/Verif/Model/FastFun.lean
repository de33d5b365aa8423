import Verif.Model.Float32

/-!
# Model of `audio/dsp/portable/fast_fun.{h,c}`

At the level of the bits of the `float` arguments and results, with correctly rounded `float`
operations (`Verif.Float32.f32`).
-/

namespace Verif.FastFun
open Verif.Float32

/-- The literals of `kFastFunLog2Table`, fast_fun.c:8-60, times 10^12. -/
def log2Literals : List ℕ :=
  [
    2812274500, 8425902580, 14017771900, 19588049500, 25136904800, 30664499800, 36170996700,
    41656553700, 47121334800, 52565492700, 57989183800, 63392564700, 68775773000, 74138976600,
    79482317000, 84805943100, 90109989000, 95394611400, 100659944000, 105906129000, 111133315000,
    116341621000, 121531196000, 126702160000, 131854668000, 136988834000, 142104805000,
    147202685000, 152282611000, 157344729000, 162389129000, 167415962000, 172425345000,
    177417383000, 182392210000, 187349945000, 192290708000, 197214603000, 202121750000,
    207012251000, 211886242000, 216743827000, 221585095000, 226410180000, 231219187000,
    236012205000, 240789369000, 245550752000, 250296474000, 255026639000, 259741336000,
    264440686000, 269124776000, 273793727000, 278447598000, 283086509000, 287710547000,
    292319804000, 296914369000, 301494390000, 306059897000, 310610980000, 315147787000,
    319670349000, 324178785000, 328673184000, 333153605000, 337620169000, 342072964000,
    346512020000, 350937486000, 355349422000, 359747887000, 364133000000, 368504822000,
    372863412000, 377208889000, 381541342000, 385860801000, 390167356000, 394461095000,
    398742110000, 403010458000, 407266200000, 411509424000, 415740222000, 419958651000,
    424164772000, 428358644000, 432540387000, 436710030000, 440867662000, 445013374000,
    449147165000, 453269154000, 457379431000, 461477995000, 465564966000, 469640374000,
    473704308000, 477756858000, 481798023000, 485827893000, 489846557000, 493854076000,
    497850448000, 501835823000, 505810201000, 509773672000, 513726234000, 517668068000,
    521599114000, 525519490000, 529429257000, 533328414000, 537217081000, 541095316000,
    544963121000, 548820615000, 552667797000, 556504786000, 560331583000, 564148247000,
    567954838000, 571751416000, 575537980000, 579314709000, 583081543000, 586838543000,
    590585828000, 594323397000, 598051310000, 601769567000, 605478346000, 609177530000,
    612867296000, 616547644000, 620218635000, 623880327000, 627532721000, 631175935000,
    634809911000, 638434768000, 642050564000, 645657301000, 649255037000, 652843833000,
    656423748000, 659994781000, 663556993000, 667110443000, 670655191000, 674191177000,
    677718580000, 681237340000, 684747577000, 688249230000, 691742480000, 695227265000,
    698703647000, 702171624000, 705631375000, 709082782000, 712525964000, 715960979000,
    719387829000, 722806513000, 726217151000, 729619741000, 733014345000, 736400962000,
    739779651000, 743150413000, 746513367000, 749868453000, 753215790000, 756555378000,
    759887218000, 763211429000, 766527951000, 769836903000, 773138285000, 776432097000,
    779718399000, 782997251000, 786268711000, 789532721000, 792789400000, 796038687000,
    799280703000, 802515447000, 805742979000, 808963299000, 812176406000, 815382421000,
    818581283000, 821773112000, 824957848000, 828135610000, 831306398000, 834470212000,
    837627053000, 840777040000, 843920171000, 847056508000, 850185990000, 853308737000,
    856424689000, 859533966000, 862636507000, 865732431000, 868821740000, 871904433000,
    874980509000, 878050089000, 881113172000, 884169698000, 887219787000, 890263498000,
    893300712000, 896331608000, 899356127000, 902374327000, 905386209000, 908391833000,
    911391199000, 914384365000, 917371333000, 920352101000, 923326731000, 926295221000,
    929257631000, 932214022000, 935164273000, 938108563000, 941046834000, 943979144000,
    946905553000, 949826002000, 952740490000, 955649197000, 958552003000, 961448967000,
    964340150000, 967225552000, 970105171000, 972979069000, 975847244000, 978709757000,
    981566548000, 984417737000, 987263322000, 990103245000, 992937624000, 995766461000,
    998589754000]

/-- The literals of `kFastFunExp2Table`, fast_fun.c:62-94. -/
def exp2Table : List ℕ :=
  [
    0, 22744, 45549, 68417, 91346, 114337, 137391, 160508, 183687, 206928, 230233, 253601, 277033,
    300528, 324086, 347709, 371395, 395146, 418961, 442841, 466786, 490795, 514870, 539009,
    563215, 587485, 611822, 636225, 660693, 685229, 709830, 734499, 759234, 784036, 808906,
    833843, 858847, 883920, 909060, 934269, 959546, 984891, 1010305, 1035788, 1061340, 1086962,
    1112653, 1138413, 1164244, 1190144, 1216115, 1242156, 1268267, 1294450, 1320703, 1347028,
    1373424, 1399891, 1426431, 1453042, 1479725, 1506481, 1533309, 1560210, 1587184, 1614231,
    1641352, 1668546, 1695814, 1723155, 1750571, 1778061, 1805626, 1833265, 1860979, 1888769,
    1916634, 1944574, 1972590, 2000682, 2028850, 2057095, 2085416, 2113814, 2142289, 2170841,
    2199471, 2228178, 2256963, 2285826, 2314768, 2343787, 2372886, 2402063, 2431320, 2460655,
    2490071, 2519566, 2549141, 2578796, 2608532, 2638348, 2668245, 2698223, 2728283, 2758424,
    2788646, 2818951, 2849338, 2879807, 2910359, 2940993, 2971711, 3002512, 3033396, 3064365,
    3095417, 3126553, 3157774, 3189079, 3220470, 3251945, 3283506, 3315152, 3346884, 3378702,
    3410607, 3442598, 3474675, 3506840, 3539092, 3571431, 3603858, 3636373, 3668976, 3701667,
    3734447, 3767316, 3800274, 3833322, 3866459, 3899686, 3933003, 3966410, 3999908, 4033496,
    4067176, 4100947, 4134810, 4168764, 4202811, 4236950, 4271181, 4305505, 4339922, 4374433,
    4409037, 4443735, 4478527, 4513413, 4548394, 4583470, 4618641, 4653907, 4689269, 4724727,
    4760281, 4795931, 4831678, 4867522, 4903463, 4939501, 4975637, 5011871, 5048204, 5084635,
    5121164, 5157793, 5194521, 5231349, 5268276, 5305304, 5342432, 5379660, 5416990, 5454421,
    5491953, 5529587, 5567323, 5605161, 5643102, 5681146, 5719293, 5757543, 5795898, 5834356,
    5872918, 5911585, 5950357, 5989234, 6028216, 6067304, 6106498, 6145798, 6185205, 6224718,
    6264339, 6304067, 6343903, 6383847, 6423899, 6464060, 6504330, 6544709, 6585197, 6625795,
    6666503, 6707322, 6748251, 6789291, 6830443, 6871706, 6913081, 6954568, 6996167, 7037880,
    7079705, 7121644, 7163696, 7205863, 7248144, 7290539, 7333050, 7375676, 7418417, 7461274,
    7504247, 7547337, 7590544, 7633868, 7677309, 7720868, 7764546, 7808341, 7852256, 7896289,
    7940442, 7984715, 8029107, 8073620, 8118254, 8163008, 8207884, 8252882, 8298002, 8343244]

/-- `kFastFunLog2Table[i]`: the `float` nearest to the decimal literal. -/
def log2Table (i : ℕ) : ℚ := f32 ((log2Literals.getD i 0 : ℕ) / 10 ^ 12)

/-- `FastLog2`, fast_fun.h:107-124, of the `float` with bits `x_bits` (nonnegative as an `int32_t`:
`x` is assumed to be positive). -/
def fastLog2 (xBits : ℕ) : ℚ :=
  let significand := (xBits >>> (23 - 8)) &&& ((1 <<< 8) - 1)
  f32 ((((xBits >>> 23) &&& 0xFF : ℕ) : ℤ) - 127 + log2Table significand)

/-- The bits of the result of `FastExp2`, fast_fun.h:149-168. -/
def fastExp2Bits (x : ℚ) : ℕ :=
  let y := f32 (x + (127 + (1 <<< (23 - 8))))
  let yBits := encode y
  ((yBits &&& (0xFF <<< 8)) <<< (23 - 8)) ||| exp2Table.getD (yBits &&& 0xFF) 0

/-- `FastExp2`, fast_fun.h:149-168. -/
def fastExp2 (x : ℚ) : ℚ := decode (fastExp2Bits x)

/-- `FastPow`, fast_fun.h:182, of the `float` with bits `xBits` and of `y`. -/
def fastPow (xBits : ℕ) (y : ℚ) : ℚ := fastExp2 (f32 (fastLog2 xBits * y))

/-- `9.011f`, fast_fun.h:194-195. -/
def tanhCutoff : ℚ := f32 (9011 / 1000)

/-- `(float)(2.0 / M_LN2)`, fast_fun.h:196. The numerator of this rational is the closest integer to
`2^22 (2 / ln 2)`. -/
def twoOverLn2 : ℚ := 12102203 / 2 ^ 22

/-- `FastTanh`, fast_fun.h:192-198. -/
def fastTanh (x : ℚ) : ℚ :=
  if tanhCutoff ≤ x then 1
  else if x ≤ -tanhCutoff then -1
  else
    let exp2x := fastExp2 (f32 (twoOverLn2 * x))
    f32 (f32 (exp2x - 1) / f32 (exp2x + 1))

end Verif.FastFun
