import Verif.Basic
/-!
# Unicode categories (parts/text.c 655-900)

The tables are transcribed mechanically from parts/text.c 707-845.  To keep them short they are
written as runs: `(a, n, d)` stands for the `n` entries `a, a+d, ..., a+(n-1)*d`.
-/
namespace Xmq

/-- The entries of one run. -/
def expandRun (r : Int × Nat × Nat) : List Int := (List.range r.2.1).map fun (k : Nat) => r.1 + (r.2.2 : Int) * (k : Int)

/-- The entries of a table written as runs. -/
def expandRuns (rs : List (Int × Nat × Nat)) : List Int := rs.flatMap expandRun

/-- `unicode_Ll`, parts/text.c 707; 2258 entries. -/
def runsLl : List (Int × Nat × Nat) :=
  [(97,26,1), (181,1,0), (223,24,1), (248,8,1), (257,28,2), (312,9,2), (329,24,2), (378,3,2), (383,1,0), (384,1,0), (387,1,0), (389,1,0), (392,1,0), 
  (396,1,0), (397,1,0), (402,1,0), (405,1,0), (409,3,1), (414,1,0), (417,3,2), (424,1,0), (426,1,0), (427,1,0), (429,1,0), (432,1,0), (436,1,0), 
  (438,1,0), (441,1,0), (442,1,0), (445,3,1), (454,1,0), (457,1,0), (460,9,2), (477,10,2), (496,1,0), (499,1,0), (501,1,0), (505,30,2), (564,6,1), 
  (572,1,0), (575,1,0), (576,1,0), (578,1,0), (583,5,2), (592,68,1), (661,27,1), (881,1,0), (883,1,0), (887,1,0), (891,3,1), (912,1,0), (940,35,1), 
  (976,1,0), (977,1,0), (981,3,1), (985,12,2), (1008,4,1), (1013,1,0), (1016,1,0), (1019,1,0), (1020,1,0), (1072,48,1), (1121,17,2), (1163,27,2), 
  (1218,7,2), (1231,49,2), (1376,41,1), (4162,8,0), (4163,16,0), (4164,16,0), (4173,8,0), (4174,16,0), (4175,12,0), (4185,9,0), (4186,15,0), (4187,11,0), 
  (4300,16,0), (4301,16,0), (4302,16,0), (4303,3,0), (4304,8,1), (4311,16,0), (4312,7,0), (4313,34,1), (4349,3,1), (4492,16,0), (4493,16,0), (5112,6,1), 
  (5862,16,0), (5863,16,0), (7296,9,1), (7306,1,0), (7424,44,1), (7489,6,0), (7490,16,0), (7491,4,0), (7492,1,0), (7492,1,0), (7493,15,0), (7494,8,0), 
  (7496,14,0), (7497,12,0), (7499,8,0), (7500,15,0), (7502,6,0), (7503,16,0), (7504,4,0), (7505,1,0), (7505,1,0), (7506,16,0), (7507,8,0), (7509,14,0), 
  (7510,12,0), (7512,10,0), (7513,16,0), (7515,6,0), (7516,16,0), (7517,4,0), (7518,1,0), (7518,1,0), (7519,16,0), (7520,8,0), (7522,14,0), (7523,12,0), 
  (7525,10,0), (7526,16,0), (7528,6,0), (7529,16,0), (7530,6,0), (7531,1,0), (7532,15,0), (7533,16,0), (7534,3,0), (7535,5,0), (7536,17,0), (7537,12,0), 
  (7538,1,0), (7539,11,0), (7540,16,0), (7541,7,0), (7542,1,0), (7543,17,0), (7544,15,0), (7545,1,0), (7546,7,0), (7547,17,0), (7548,11,0), (7549,30,1)] ++
  [(7664,15,0), (7665,15,0), (7666,6,0), (7681,73,2), (7826,14,0), (7827,17,0), (7828,4,0), (7829,9,1), (7839,49,2), (7936,8,1), (7952,6,1), (7968,8,1), 
  (7984,8,1), (8000,6,1), (8016,8,1), (8032,8,1), (8048,14,1), (8064,8,1), (8080,8,1), (8096,8,1), (8112,5,1), (8118,1,0), (8119,1,0), (8126,1,0), 
  (8130,3,1), (8134,1,0), (8135,1,0), (8144,4,1), (8150,1,0), (8151,1,0), (8160,8,1), (8178,3,1), (8182,1,0), (8183,1,0), (8458,1,0), (8462,1,0), 
  (8463,1,0), (8467,1,0), (8495,1,0), (8500,1,0), (8505,1,0), (8508,1,0), (8509,1,0), (8518,4,1), (8526,1,0), (8580,1,0), (11312,48,1), (11361,1,0), 
  (11365,1,0), (11366,4,2), (11377,1,0), (11379,1,0), (11380,1,0), (11382,6,1), (11393,50,2), (11492,1,0), (11500,1,0), (11502,1,0), (11507,1,0), 
  (11520,38,1), (11559,1,0), (11565,1,0), (42561,23,2), (42625,14,2), (42787,7,2), (42800,1,0), (42801,33,2), (42866,7,1), (42874,1,0), (42876,1,0), 
  (42879,5,2), (42892,1,0), (42894,1,0), (42897,1,0), (42899,3,1), (42903,10,2), (42927,1,0), (42933,8,2), (42952,1,0), (42954,1,0), (42957,1,0), 
  (42961,6,2), (42998,1,0), (43002,1,0), (43824,43,1), (43872,9,1), (43888,80,1), (64256,7,1), (64275,5,1), (65345,26,1)]

/-- `unicode_Lu`, parts/text.c 711; 1858 entries. -/
def runsLu : List (Int × Nat × Nat) :=
  [(65,26,1), (192,23,1), (216,7,1), (256,28,2), (313,8,2), (330,24,2), (377,3,2), (385,1,0), (386,3,2), (391,1,0), (393,3,1), (398,4,1), (403,1,0), 
  (404,1,0), (406,3,1), (412,1,0), (413,1,0), (415,1,0), (416,4,2), (423,1,0), (425,1,0), (428,1,0), (430,1,0), (431,1,0), (433,3,1), (437,1,0), 
  (439,1,0), (440,1,0), (444,1,0), (452,1,0), (455,1,0), (458,1,0), (461,8,2), (478,9,2), (497,1,0), (500,1,0), (502,3,1), (506,29,2), (570,1,0), 
  (571,1,0), (573,1,0), (574,1,0), (577,1,0), (579,4,1), (584,4,2), (880,1,0), (882,1,0), (886,1,0), (895,1,0), (902,1,0), (904,3,1), (908,1,0), 
  (910,1,0), (911,1,0), (913,17,1), (931,9,1), (975,1,0), (978,3,1), (984,12,2), (1012,1,0), (1015,1,0), (1017,1,0), (1018,1,0), (1021,51,1), 
  (1120,17,2), (1162,28,2), (1217,7,2), (1232,48,2), (1329,38,1), (4160,16,0), (4161,16,0), (4162,8,0), (4171,16,0), (4172,16,0), (4173,4,0), 
  (4183,15,0), (4184,15,0), (4185,5,0), (4256,38,1), (4295,1,0), (4296,16,0), (4297,16,0), (4298,16,0), (4299,3,0), (4301,1,0), (4309,16,0), (4310,6,0), 
  (4490,16,0), (4491,16,0), (5024,86,1), (5860,16,0), (5861,16,0), (7305,1,0), (7312,43,1), (7357,3,1), (7488,16,0), (7489,10,0), (7491,12,0), 
  (7492,14,0), (7494,8,0), (7495,16,0), (7496,1,0), (7496,1,0), (7497,3,0), (7498,9,0), (7499,6,0), (7501,16,0), (7502,10,0), (7504,9,0), (7505,12,0), 
  (7507,6,0), (7508,12,0), (7509,1,0), (7510,4,0), (7511,16,0), (7512,6,0), (7514,16,0), (7515,10,0), (7517,12,0), (7518,14,0), (7520,8,0), (7521,16,0), 
  (7522,1,0), (7522,1,0), (7523,4,0), (7524,16,0), (7525,6,0), (7527,16,0), (7528,10,0), (7530,8,0), (7531,16,0), (7532,1,0), (7534,14,0), (7535,11,0), 
  (7537,4,0), (7538,16,0), (7539,5,0), (7541,10,0), (7542,15,0), (7545,16,0), (7546,9,0), (7548,1,0), (7680,73,2), (7824,16,0), (7825,16,0), (7826,3,0)] ++
  [(7828,1,0), (7838,49,2), (7944,8,1), (7960,6,1), (7976,8,1), (7992,8,1), (8008,6,1), (8025,4,2), (8040,8,1), (8120,4,1), (8136,4,1), (8152,4,1), 
  (8168,5,1), (8184,4,1), (8450,1,0), (8455,1,0), (8459,3,1), (8464,3,1), (8469,1,0), (8473,5,1), (8484,4,2), (8491,3,1), (8496,4,1), (8510,1,0), 
  (8511,1,0), (8517,1,0), (8579,1,0), (11264,48,1), (11360,1,0), (11362,3,1), (11367,4,2), (11374,3,1), (11378,1,0), (11381,1,0), (11390,3,1), 
  (11394,49,2), (11499,1,0), (11501,1,0), (11506,1,0), (42560,23,2), (42624,14,2), (42786,7,2), (42802,31,2), (42873,3,2), (42878,5,2), (42891,1,0), 
  (42893,1,0), (42896,1,0), (42898,1,0), (42902,11,2), (42923,4,1), (42928,5,1), (42934,8,2), (42949,3,1), (42953,1,0), (42955,1,0), (42956,1,0), 
  (42960,1,0), (42966,4,2), (42997,1,0), (65313,26,1)]

/-- `unicode_Lt`, parts/text.c 715; 31 entries. -/
def runsLt : List (Int × Nat × Nat) := [
  (453,1,0), (456,1,0), (459,1,0), (498,1,0), (8072,8,1), (8088,8,1), (8104,8,1), (8124,1,0), (8140,1,0), (8188,1,0)]

/-- `unicode_LC`, parts/text.c 718; 1 entries. -/
def runsLC : List (Int × Nat × Nat) := [
  (-1,1,0)]

/-- `unicode_Lm`, parts/text.c 721; 404 entries. -/
def runsLm : List (Int × Nat × Nat) := [
  (688,18,1), (710,12,1), (736,5,1), (748,1,0), (750,1,0), (884,1,0), (890,1,0), (1369,1,0), (1600,1,0), (1765,1,0), (1766,1,0), (2036,1,0), (2037,1,0), 
  (2042,1,0), (2074,1,0), (2084,1,0), (2088,1,0), (2249,1,0), (2417,1,0), (3654,1,0), (3782,1,0), (4216,15,0), (4217,16,0), (4218,16,0), (4219,10,0), 
  (4308,1,0), (4310,1,0), (4348,1,0), (5812,4,0), (5844,3,0), (5846,1,0), (5846,1,0), (5881,13,0), (5886,3,0), (6103,1,0), (6211,1,0), (6823,1,0), 
  (6911,13,0), (7288,6,1), (7468,63,1), (7544,1,0), (7579,37,1), (7683,16,0), (7684,16,0), (7685,16,0), (7686,14,0), (7699,7,0), (7758,1,0), (7828,1,0), 
  (8305,1,0), (8319,1,0), (8336,13,1), (11388,1,0), (11389,1,0), (11631,1,0), (11823,1,0), (12293,1,0), (12337,5,1), (12347,1,0), (12445,1,0), 
  (12446,1,0), (12540,3,1), (40981,1,0), (42232,6,1), (42508,1,0), (42623,1,0), (42652,1,0), (42653,1,0), (42775,9,1), (42864,1,0), (42888,1,0), 
  (42994,3,1), (43000,1,0), (43001,1,0), (43471,1,0), (43494,1,0), (43632,1,0), (43741,1,0), (43763,1,0), (43764,1,0), (43868,4,1), (43881,1,0), 
  (65392,1,0), (65438,1,0), (65439,1,0)]

/-- `unicode_Lo`, parts/text.c 725; 21518 entries. -/
def runsLo : List (Int × Nat × Nat) :=
  [(170,1,0), (186,1,0), (443,1,0), (448,4,1), (660,1,0), (1488,27,1), (1519,4,1), (1568,32,1), (1601,10,1), (1646,1,0), (1647,1,0), (1649,99,1), 
  (1749,1,0), (1774,1,0), (1775,1,0), (1786,3,1), (1791,1,0), (1808,1,0), (1810,30,1), (1869,89,1), (1969,1,0), (1994,33,1), (2048,22,1), (2112,25,1), 
  (2144,11,1), (2160,24,1), (2185,6,1), (2208,41,1), (2308,54,1), (2365,1,0), (2384,1,0), (2392,10,1), (2418,15,1), (2437,8,1), (2447,1,0), (2448,1,0), 
  (2451,22,1), (2474,7,1), (2482,1,0), (2486,4,1), (2493,1,0), (2510,1,0), (2524,1,0), (2525,1,0), (2527,3,1), (2544,1,0), (2545,1,0), (2556,1,0), 
  (2565,6,1), (2575,1,0), (2576,1,0), (2579,22,1), (2602,7,1), (2610,1,0), (2611,1,0), (2613,1,0), (2614,1,0), (2616,1,0), (2617,1,0), (2649,4,1), 
  (2654,1,0), (2674,3,1), (2693,9,1), (2703,3,1), (2707,22,1), (2730,7,1), (2738,1,0), (2739,1,0), (2741,5,1), (2749,1,0), (2768,1,0), (2784,1,0), 
  (2785,1,0), (2809,1,0), (2821,8,1), (2831,1,0), (2832,1,0), (2835,22,1), (2858,7,1), (2866,1,0), (2867,1,0), (2869,5,1), (2877,1,0), (2908,1,0), 
  (2909,1,0), (2911,3,1), (2929,1,0), (2947,1,0), (2949,6,1), (2958,3,1), (2962,4,1), (2969,1,0), (2970,3,2), (2975,1,0), (2979,1,0), (2980,1,0), 
  (2984,3,1), (2990,12,1), (3024,1,0), (3077,8,1), (3086,3,1), (3090,23,1), (3114,16,1), (3133,1,0), (3160,3,1), (3165,1,0), (3168,1,0), (3169,1,0), 
  (3200,1,0), (3205,8,1), (3214,3,1), (3218,23,1), (3242,10,1), (3253,5,1), (3261,1,0), (3293,1,0), (3294,1,0), (3296,1,0), (3297,1,0), (3313,1,0), 
  (3314,1,0), (3332,9,1), (3342,3,1), (3346,41,1), (3389,1,0), (3406,1,0), (3412,3,1), (3423,3,1), (3450,6,1), (3461,18,1), (3482,24,1), (3507,9,1), 
  (3517,1,0), (3520,7,1), (3585,48,1), (3634,1,0), (3635,1,0), (3648,6,1), (3713,1,0), (3714,3,2), (3719,4,1), (3724,24,1), (3749,1,0), (3751,10,1)] ++
  [(3762,1,0), (3763,1,0), (3773,1,0), (3776,5,1), (3804,4,1), (3840,1,0), (3904,8,1), (3913,36,1), (3976,5,1), (4096,16,0), (4097,17,0), (4098,16,0), 
  (4099,15,0), (4100,15,0), (4101,15,0), (4102,3,1), (4104,16,0), (4105,17,0), (4106,17,0), (4107,17,0), (4108,17,0), (4109,17,0), (4110,17,0), 
  (4111,12,0), (4112,25,1), (4136,16,0), (4137,14,0), (4138,17,0), (4139,16,0), (4140,16,0), (4141,1,0), (4144,16,0), (4145,16,0), (4146,3,0), 
  (4147,16,0), (4148,9,0), (4149,16,0), (4150,16,0), (4151,6,0), (4152,16,0), (4153,14,0), (4154,16,0), (4155,16,0), (4156,12,0), (4159,1,0), 
  (4165,16,0), (4166,16,0), (4167,16,0), (4168,16,0), (4169,14,0), (4176,17,0), (4177,17,0), (4178,9,0), (4179,17,0), (4180,17,0), (4181,17,0), 
  (4182,4,0), (4186,3,1), (4188,16,0), (4189,17,0), (4190,16,0), (4191,4,0), (4192,16,0), (4193,17,0), (4194,16,0), (4195,16,0), (4196,16,0), 
  (4197,17,0), (4198,17,0), (4199,16,0), (4200,16,0), (4201,16,0), (4202,16,0), (4203,16,0), (4204,16,0), (4205,16,0), (4206,17,0), (4207,17,0), 
  (4208,17,0), (4209,16,0), (4210,16,0), (4211,7,0), (4212,16,0), (4213,7,0), (4214,9,0), (4215,10,1), (4224,13,0), (4225,17,0), (4226,16,0), 
  (4227,10,0), (4228,16,0), (4229,6,0), (4230,16,0), (4231,7,0), (4232,16,0), (4233,15,0), (4238,17,0), (4239,5,0), (4240,16,0), (4241,6,0), (4242,16,0), 
  (4243,10,0), (4248,16,0), (4249,16,0), (4250,16,0), (4251,10,0), (4256,1,0), (4257,14,0), (4258,16,0), (4259,6,0), (4262,16,0), (4263,13,0), 
  (4264,16,0), (4265,13,0), (4268,15,0), (4269,16,0), (4270,5,0), (4272,16,0), (4273,16,0), (4274,16,0), (4275,6,0), (4276,16,0), (4277,6,0), 
  (4278,16,0), (4279,3,0), (4280,16,0), (4281,1,0), (4281,1,0), (4288,16,0), (4289,16,0), (4290,16,0), (4291,16,0), (4292,9,0), (4304,16,0), (4305,16,0)] ++
  [(4306,4,0), (4308,5,0), (4328,16,0), (4329,16,0), (4330,10,0), (4331,1,0), (4331,1,0), (4332,3,0), (4336,16,0), (4337,13,0), (4338,1,0), (4339,16,0), 
  (4340,6,0), (4343,16,0), (4344,1,0), (4344,1,0), (4347,16,0), (4348,5,0), (4350,16,0), (4351,7,0), (4352,14,0), (4353,17,0), (4354,17,0), (4355,9,0), 
  (4356,4,1), (4359,3,0), (4360,14,0), (4361,17,0), (4362,17,0), (4363,3,1), (4365,16,0), (4366,10,0), (4367,1,0), (4368,14,0), (4369,17,0), (4370,8,0), 
  (4371,1,0), (4372,3,0), (4373,17,0), (4374,17,0), (4375,5,0), (4376,14,0), (4377,17,0), (4378,17,0), (4379,4,0), (4380,5,0), (4381,3,0), (4382,3,1), 
  (4384,16,0), (4385,16,0), (4386,13,0), (4387,1,0), (4387,1,0), (4388,1,0), (4388,5,1), (4392,13,0), (4393,16,0), (4394,10,0), (4395,17,0), (4396,17,0), 
  (4397,16,0), (4398,3,1), (4400,9,0), (4401,15,0), (4402,16,0), (4403,10,0), (4404,1,0), (4405,5,0), (4406,3,0), (4407,1,0), (4408,13,0), (4409,17,0), 
  (4410,17,0), (4411,8,0), (4412,1,0), (4413,3,0), (4414,3,1), (4416,16,0), (4417,17,0), (4418,17,0), (4419,6,0), (4420,5,0), (4421,1,0), (4421,1,0), 
  (4422,3,0), (4423,1,0), (4424,17,0), (4425,17,0), (4426,17,0), (4427,1,0), (4428,4,0), (4429,12,1), (4440,16,0), (4441,17,0), (4442,16,0), (4443,3,1), 
  (4445,4,0), (4446,3,1), (4448,16,0), (4449,17,0), (4450,17,0), (4451,1,0), (4452,1,0), (4452,5,1), (4456,16,0), (4457,17,0), (4458,12,0), (4459,1,0), 
  (4459,6,1), (4464,16,0), (4465,12,0), (4466,3,1), (4468,7,0), (4469,12,1), (4480,16,0), (4481,17,0), (4482,13,0), (4483,13,1), (4495,1,0), (4496,13,0), 
  (4497,15,0), (4498,17,0), (4499,1,0), (4499,1,0), (4500,1,0), (4500,7,1), (4506,14,0), (4507,17,0), (4508,17,0), (4509,1,0), (4509,1,0), (4510,3,0), 
  (4511,1,0), (4512,7,0), (4513,17,0), (4514,17,0), (4515,5,0), (4516,1,0), (4517,6,0), (4518,17,0), (4519,17,0), (4520,11,0), (4521,1,0), (4521,3,1)] ++
  [(4523,16,0), (4524,17,0), (4525,17,0), (4526,17,0), (4527,10,0), (4528,13,1), (4540,16,0), (4541,17,0), (4542,1,0), (4542,3,1), (4544,15,0), 
  (4545,17,0), (4546,16,0), (4547,1,0), (4548,1,0), (4548,4,1), (4551,14,0), (4552,17,0), (4553,8,1), (4560,14,0), (4561,17,0), (4562,17,0), (4563,1,0), 
  (4563,1,0), (4564,1,0), (4564,3,1), (4566,14,0), (4567,17,0), (4568,11,0), (4569,1,0), (4569,22,1), (4590,16,0), (4591,4,0), (4592,14,0), (4593,16,0), 
  (4594,17,0), (4595,5,0), (4596,8,1), (4603,6,1), (4608,16,0), (4609,17,0), (4610,17,0), (4611,17,0), (4612,17,0), (4613,17,0), (4614,17,0), 
  (4615,17,0), (4616,17,0), (4617,17,0), (4618,17,0), (4619,17,0), (4620,17,0), (4621,17,0), (4622,17,0), (4623,17,0), (4624,17,0), (4625,17,0), 
  (4626,17,0), (4627,17,0), (4628,17,0), (4629,17,0), (4630,17,0), (4631,17,0), (4632,17,0), (4633,17,0), (4634,17,0), (4635,17,0), (4636,17,0), 
  (4637,17,0), (4638,17,0), (4639,17,0), (4640,17,0), (4641,17,0), (4642,17,0), (4643,17,0), (4644,17,0), (4645,17,0), (4646,17,0), (4647,17,0), 
  (4648,17,0), (4649,17,0), (4650,17,0), (4651,17,0), (4652,17,0), (4653,17,0), (4654,17,0), (4655,17,0), (4656,17,0), (4657,17,0), (4658,17,0), 
  (4659,17,0), (4660,17,0), (4661,17,0), (4662,17,0), (4663,17,0), (4664,17,0), (4665,11,0), (4666,15,1), (4680,16,0), (4681,16,0), (4682,17,0), 
  (4683,17,0), (4684,17,0), (4685,17,0), (4686,16,0), (4687,16,0), (4688,17,0), (4689,17,0), (4690,17,0), (4691,17,0), (4692,5,0), (4693,1,0), 
  (4694,3,2), (4699,3,1), (4704,41,1), (4746,4,1), (4752,33,1), (4786,4,1), (4792,7,1), (4800,1,0), (4802,4,1), (4808,15,1), (4824,34,1), (4857,16,0), 
  (4858,17,0), (4859,17,0), (4860,17,0), (4861,17,0), (4862,17,0), (4863,1,0), (4863,1,0), (4864,17,0), (4865,17,0), (4866,17,0), (4867,17,0)] ++
  [(4868,17,0), (4869,17,0), (4870,17,0), (4871,17,0), (4872,17,0), (4873,17,0), (4874,17,0), (4875,17,0), (4876,17,0), (4877,17,0), (4878,17,0), 
  (4879,17,0), (4880,17,0), (4881,16,0), (4882,17,0), (4883,17,0), (4884,17,0), (4885,17,0), (4886,16,0), (4887,16,0), (4888,17,0), (4889,17,0), 
  (4890,17,0), (4891,17,0), (4892,17,0), (4893,17,0), (4894,17,0), (4895,17,0), (4896,17,0), (4897,17,0), (4898,17,0), (4899,17,0), (4900,17,0), 
  (4901,17,0), (4902,17,0), (4903,17,0), (4904,17,0), (4905,17,0), (4906,17,0), (4907,17,0), (4908,17,0), (4909,17,0), (4910,17,0), (4911,17,0), 
  (4912,17,0), (4913,17,0), (4914,17,0), (4915,17,0), (4916,17,0), (4917,17,0), (4918,17,0), (4919,17,0), (4920,17,0), (4921,17,0), (4922,17,0), 
  (4923,17,0), (4924,17,0), (4925,17,0), (4926,17,0), (4927,17,0), (4928,17,0), (4929,17,0), (4930,17,0), (4931,1,0), (4932,7,0), (4933,1,0), 
  (4934,17,0), (4935,17,0), (4936,17,0), (4937,17,0), (4938,17,0), (4939,17,0), (4940,17,0), (4941,17,0), (4942,17,0), (4943,17,0), (4944,17,0), 
  (4945,17,0), (4946,17,0), (4947,17,0), (4948,17,0), (4949,17,0), (4950,17,0), (4951,17,0), (4952,17,0), (4953,17,0), (4954,17,0), (4955,16,0), 
  (4956,16,0), (4957,16,0), (4958,16,0), (4959,16,0), (4960,16,0), (4961,16,0), (4962,16,0), (4963,16,0), (4964,16,0), (4965,16,0), (4966,16,0), 
  (4967,16,0), (4968,16,0), (4969,16,0), (4970,16,0), (4971,16,0), (4972,16,0), (4973,16,0), (4974,16,0), (4975,16,0), (4976,16,0), (4977,16,0), 
  (4978,16,0), (4979,16,0), (4980,16,0), (4981,16,0), (4982,16,0), (4983,16,0), (4984,16,0), (4985,16,0), (4986,16,0), (4987,16,0), (4988,16,0), 
  (4989,16,0), (4990,16,0), (4991,16,0), (4992,17,0), (4993,17,0), (4994,17,0), (4995,17,0), (4996,17,0), (4997,17,0), (4998,17,0), (4999,17,0)] ++
  [(5000,17,0), (5001,17,0), (5002,17,0), (5003,17,0), (5004,17,0), (5005,17,0), (5006,17,0), (5007,17,0), (5008,16,0), (5009,16,0), (5010,16,0), 
  (5011,16,0), (5012,16,0), (5013,16,0), (5014,16,0), (5015,16,0), (5016,16,0), (5017,16,0), (5018,16,0), (5019,16,0), (5020,16,0), (5021,16,0), 
  (5022,16,0), (5023,16,0), (5024,16,0), (5025,16,0), (5026,16,0), (5027,16,0), (5028,16,0), (5029,16,0), (5030,16,0), (5031,16,0), (5032,16,0), 
  (5033,16,0), (5034,16,0), (5035,16,0), (5036,16,0), (5037,16,0), (5038,16,0), (5039,16,0), (5040,16,0), (5041,16,0), (5042,16,0), (5043,16,0), 
  (5044,16,0), (5045,16,0), (5046,16,0), (5047,16,0), (5048,16,0), (5049,16,0), (5050,16,0), (5051,16,0), (5052,16,0), (5053,16,0), (5054,16,0), 
  (5055,16,0), (5056,16,0), (5057,16,0), (5058,16,0), (5059,16,0), (5060,16,0), (5061,16,0), (5062,16,0), (5063,16,0), (5064,16,0), (5065,16,0), 
  (5066,16,0), (5067,16,0), (5068,16,0), (5069,16,0), (5070,16,0), (5071,16,0), (5072,16,0), (5073,16,0), (5074,16,0), (5075,16,0), (5076,16,0), 
  (5077,16,0), (5078,16,0), (5079,16,0), (5080,16,0), (5081,16,0), (5082,16,0), (5083,16,0), (5084,16,0), (5085,16,0), (5086,16,0), (5087,16,0), 
  (5088,16,0), (5089,16,0), (5090,16,0), (5091,16,0), (5092,16,0), (5093,16,0), (5094,16,0), (5095,16,0), (5096,16,0), (5097,16,0), (5098,16,0), 
  (5099,16,0), (5100,16,0), (5101,16,0), (5102,16,0), (5103,16,0), (5104,16,0), (5105,16,0), (5106,16,0), (5107,16,0), (5108,16,0), (5109,16,0), 
  (5110,16,0), (5111,16,0), (5112,16,0), (5113,16,0), (5114,16,0), (5115,16,0), (5116,16,0), (5117,16,0), (5118,16,0), (5119,16,0), (5120,16,0), 
  (5121,17,0), (5122,17,0), (5123,17,0), (5124,17,0), (5125,17,0), (5126,17,0), (5127,17,0), (5128,17,0), (5129,17,0), (5130,17,0), (5131,17,0)] ++
  [(5132,17,0), (5133,17,0), (5134,17,0), (5135,17,0), (5136,17,0), (5137,17,0), (5138,17,0), (5139,17,0), (5140,17,0), (5141,17,0), (5142,17,0), 
  (5143,17,0), (5144,17,0), (5145,17,0), (5146,17,0), (5147,17,0), (5148,17,0), (5149,17,0), (5150,17,0), (5151,17,0), (5152,17,0), (5153,17,0), 
  (5154,17,0), (5155,17,0), (5156,17,0), (5157,17,0), (5158,17,0), (5159,17,0), (5160,17,0), (5161,17,0), (5162,17,0), (5163,17,0), (5164,17,0), 
  (5165,17,0), (5166,17,0), (5167,17,0), (5168,17,0), (5169,17,0), (5170,17,0), (5171,17,0), (5172,17,0), (5173,17,0), (5174,17,0), (5175,17,0), 
  (5176,17,0), (5177,17,0), (5178,17,0), (5179,17,0), (5180,17,0), (5181,17,0), (5182,17,0), (5183,12,0), (5184,17,0), (5185,17,0), (5186,17,0), 
  (5187,17,0), (5188,17,0), (5189,17,0), (5190,17,0), (5191,17,0), (5192,17,0), (5193,17,0), (5194,17,0), (5195,17,0), (5196,17,0), (5197,17,0), 
  (5198,17,0), (5199,17,0), (5200,17,0), (5201,17,0), (5202,17,0), (5203,17,0), (5204,17,0), (5205,17,0), (5206,17,0), (5207,17,0), (5208,17,0), 
  (5209,17,0), (5210,17,0), (5211,17,0), (5212,17,0), (5213,17,0), (5214,17,0), (5215,17,0), (5216,17,0), (5217,17,0), (5218,17,0), (5219,17,0), 
  (5220,8,0), (5221,428,1), (5648,16,0), (5649,15,0), (5650,91,1), (5743,18,1), (5760,15,0), (5761,17,0), (5762,17,0), (5763,17,0), (5764,17,0), 
  (5765,17,0), (5766,17,0), (5767,17,0), (5768,17,0), (5769,17,0), (5770,17,0), (5771,17,0), (5772,17,0), (5773,17,0), (5774,17,0), (5775,17,0), 
  (5776,17,0), (5777,17,0), (5778,17,0), (5779,17,0), (5780,17,0), (5781,17,0), (5782,17,0), (5783,17,0), (5784,17,0), (5785,17,0), (5786,17,0), 
  (5787,16,0), (5788,16,0), (5789,16,0), (5790,16,0), (5791,16,0), (5792,17,0), (5793,17,0), (5794,17,0), (5795,10,0), (5796,17,0), (5797,16,0)] ++
  [(5798,1,0), (5799,17,0), (5800,17,0), (5801,17,0), (5802,17,0), (5803,16,0), (5804,1,0), (5805,17,0), (5806,15,0), (5807,1,0), (5808,17,0), 
  (5809,17,0), (5810,17,0), (5811,4,1), (5814,13,0), (5815,12,0), (5816,17,0), (5817,28,1), (5844,13,0), (5845,17,0), (5846,12,0), (5847,20,1), 
  (5872,16,0), (5873,17,0), (5874,17,0), (5875,17,0), (5876,12,0), (5877,1,0), (5877,4,1), (5888,1,0), (5888,18,1), (5919,19,1), (5952,18,1), 
  (5984,13,1), (5998,3,1), (6016,52,1), (6108,1,0), (6176,35,1), (6212,53,1), (6271,1,0), (6272,17,0), (6273,17,0), (6274,17,0), (6275,17,0), 
  (6276,17,0), (6277,16,0), (6278,16,0), (6279,17,0), (6280,17,0), (6281,17,0), (6282,17,0), (6283,17,0), (6284,17,0), (6285,17,0), (6286,17,0), 
  (6287,17,0), (6288,17,0), (6289,17,0), (6290,17,0), (6291,17,0), (6292,17,0), (6293,17,0), (6294,17,0), (6295,17,0), (6296,17,0), (6297,17,0), 
  (6298,17,0), (6299,17,0), (6300,17,0), (6301,17,0), (6302,17,0), (6303,17,0), (6304,17,0), (6305,17,0), (6306,17,0), (6307,17,0), (6308,17,0), 
  (6309,17,0), (6310,17,0), (6311,17,0), (6312,17,0), (6313,16,0), (6314,17,0), (6315,16,0), (6316,16,0), (6317,16,0), (6318,16,0), (6319,16,0), 
  (6320,17,0), (6321,17,0), (6322,17,0), (6323,17,0), (6324,17,0), (6325,17,0), (6326,17,0), (6327,17,0), (6328,17,0), (6329,17,0), (6330,17,0), 
  (6331,17,0), (6332,17,0), (6333,17,0), (6334,17,0), (6335,17,0), (6336,17,0), (6337,17,0), (6338,17,0), (6339,17,0), (6340,17,0), (6341,17,0), 
  (6342,17,0), (6343,17,0), (6344,17,0), (6345,17,0), (6346,17,0), (6347,17,0), (6348,17,0), (6349,7,0), (6350,1,0), (6351,1,0), (6351,1,0), (6352,3,0), 
  (6353,37,1), (6400,31,1), (6480,30,1), (6512,5,1), (6528,44,1), (6576,26,1), (6656,23,1), (6688,53,1), (6912,16,0), (6913,16,0), (6914,16,0)] ++
  [(6915,16,0), (6916,16,0), (6917,17,0), (6918,17,0), (6919,17,0), (6920,17,0), (6921,17,0), (6922,17,0), (6923,17,0), (6924,17,0), (6925,17,0), 
  (6926,17,0), (6927,17,0), (6928,17,0), (6929,17,0), (6930,4,0), (6931,1,0), (6931,3,1), (6933,4,0), (6934,5,0), (6935,17,0), (6936,17,0), (6937,17,0), 
  (6938,17,0), (6939,17,0), (6940,17,0), (6941,17,0), (6942,17,0), (6943,17,0), (6944,17,0), (6945,17,0), (6946,17,0), (6947,17,0), (6948,17,0), 
  (6949,17,0), (6950,17,0), (6951,17,0), (6952,17,0), (6953,17,0), (6954,17,0), (6955,17,0), (6956,17,0), (6957,17,0), (6958,17,0), (6959,13,0), 
  (6960,4,1), (6981,8,1), (7043,30,1), (7086,1,0), (7087,1,0), (7098,7,1), (7104,16,0), (7105,17,0), (7106,17,0), (7107,17,0), (7108,17,0), (7109,17,0), 
  (7110,12,0), (7111,14,0), (7112,10,0), (7113,11,0), (7114,28,1), (7168,36,1), (7245,3,1), (7258,30,1), (7401,4,1), (7406,6,1), (7413,1,0), (7414,1,0), 
  (7418,1,0), (7664,1,0), (7696,16,0), (7697,16,0), (7698,13,0), (7700,1,0), (7721,16,0), (7722,14,0), (7724,16,0), (7725,16,0), (7726,12,0), 
  (7757,16,0), (7758,11,0), (7773,16,0), (7774,14,0), (7775,1,0), (7806,13,0), (7807,15,0), (7808,16,0), (7809,16,0), (7810,16,0), (7811,16,0), 
  (7812,16,0), (7813,16,0), (7814,16,0), (7815,16,0), (7816,16,0), (7817,16,0), (7818,16,0), (7819,16,0), (7820,5,0), (7904,15,0), (7905,16,0), 
  (7906,11,0), (7907,9,0), (7908,7,0), (7909,8,0), (7910,11,0), (7911,12,0), (7912,15,0), (7913,12,0), (7914,13,0), (7915,12,0), (8192,1,0), (8501,4,1), 
  (10861,1,0), (10864,1,0), (11123,1,0), (11124,1,0), (11137,1,0), (11138,1,0), (11498,1,0), (11499,1,0), (11568,56,1), (11648,23,1), (11680,7,1), 
  (11688,7,1), (11696,7,1), (11704,7,1), (11712,7,1), (11720,7,1), (11728,7,1), (11736,7,1), (11966,1,0), (11967,1,0), (12005,1,0), (12160,16,0)] ++
  [(12161,16,0), (12162,16,0), (12163,16,0), (12164,16,0), (12165,16,0), (12166,16,0), (12167,16,0), (12168,16,0), (12169,16,0), (12170,16,0), 
  (12171,16,0), (12172,16,0), (12173,16,0), (12174,16,0), (12175,16,0), (12176,16,0), (12177,16,0), (12178,16,0), (12179,16,0), (12180,16,0), 
  (12181,16,0), (12182,16,0), (12183,16,0), (12184,16,0), (12185,16,0), (12186,16,0), (12187,16,0), (12188,16,0), (12189,16,0), (12190,16,0), 
  (12191,16,0), (12192,16,0), (12193,14,0), (12288,1,0), (12294,1,0), (12348,1,0), (12353,86,1), (12447,1,0), (12449,90,1), (12543,1,0), (12549,43,1), 
  (12593,4,1), (12596,1,0), (12597,1,0), (12597,90,1), (12704,32,1), (12784,16,1), (12858,1,0), (13312,1,0), (19903,1,0), (19968,1,0), (40959,22,1), 
  (40982,1143,1), (42192,40,1), (42240,268,1), (42512,16,1), (42538,1,0), (42539,1,0), (42606,1,0), (42656,70,1), (42895,1,0), (42999,1,0), (43003,7,1), 
  (43011,3,1), (43015,4,1), (43020,23,1), (43072,52,1), (43138,50,1), (43250,6,1), (43259,1,0), (43261,1,0), (43262,1,0), (43274,28,1), (43312,23,1), 
  (43360,29,1), (43396,47,1), (43488,5,1), (43495,9,1), (43514,5,1), (43520,41,1), (43584,3,1), (43588,8,1), (43616,16,1), (43633,6,1), (43642,1,0), 
  (43646,50,1), (43697,1,0), (43701,1,0), (43702,1,0), (43705,5,1), (43712,1,0), (43714,1,0), (43739,1,0), (43740,1,0), (43744,11,1), (43762,1,0), 
  (43777,6,1), (43785,6,1), (43793,6,1), (43808,7,1), (43816,7,1), (43968,35,1), (44032,1,0), (55203,1,0), (55216,23,1), (55243,49,1), (63744,366,1), 
  (64112,106,1), (64285,1,0), (64287,10,1), (64298,13,1), (64312,5,1), (64318,1,0), (64320,1,0), (64321,1,0), (64323,1,0), (64324,1,0), (64326,108,1), 
  (64467,363,1), (64848,64,1), (64914,54,1), (65008,12,1), (65136,5,1), (65142,135,1), (65382,10,1), (65393,45,1), (65440,31,1), (65474,6,1)] ++
  [(65482,6,1), (65490,6,1), (65498,3,1)]

/-- `unicode_L`, parts/text.c 729; 1 entries. -/
def runsL : List (Int × Nat × Nat) := [
  (-1,1,0)]

/-- `unicode_Mn`, parts/text.c 732; 2020 entries. -/
def runsMn : List (Int × Nat × Nat) :=
  [(768,112,1), (1155,5,1), (1425,45,1), (1471,1,0), (1473,1,0), (1474,1,0), (1476,1,0), (1477,1,0), (1479,1,0), (1552,11,1), (1611,21,1), (1648,1,0), 
  (1750,7,1), (1759,6,1), (1767,1,0), (1768,1,0), (1770,4,1), (1809,1,0), (1840,27,1), (1958,11,1), (2027,9,1), (2045,1,0), (2070,4,1), (2075,9,1), 
  (2085,3,1), (2089,5,1), (2137,3,1), (2199,9,1), (2250,24,1), (2275,32,1), (2362,1,0), (2364,1,0), (2369,8,1), (2381,1,0), (2385,7,1), (2402,1,0), 
  (2403,1,0), (2433,1,0), (2492,1,0), (2497,4,1), (2509,1,0), (2530,1,0), (2531,1,0), (2558,1,0), (2561,1,0), (2562,1,0), (2620,1,0), (2625,1,0), 
  (2626,1,0), (2631,1,0), (2632,1,0), (2635,3,1), (2641,1,0), (2672,1,0), (2673,1,0), (2677,1,0), (2689,1,0), (2690,1,0), (2748,1,0), (2753,5,1), 
  (2759,1,0), (2760,1,0), (2765,1,0), (2786,1,0), (2787,1,0), (2810,6,1), (2817,1,0), (2876,1,0), (2879,1,0), (2881,4,1), (2893,1,0), (2901,1,0), 
  (2902,1,0), (2914,1,0), (2915,1,0), (2946,1,0), (3008,1,0), (3021,1,0), (3072,1,0), (3076,1,0), (3132,1,0), (3134,3,1), (3142,3,1), (3146,4,1), 
  (3157,1,0), (3158,1,0), (3170,1,0), (3171,1,0), (3201,1,0), (3260,1,0), (3263,1,0), (3270,1,0), (3276,1,0), (3277,1,0), (3298,1,0), (3299,1,0), 
  (3328,1,0), (3329,1,0), (3387,1,0), (3388,1,0), (3393,4,1), (3405,1,0), (3426,1,0), (3427,1,0), (3457,1,0), (3530,1,0), (3538,3,1), (3542,1,0), 
  (3633,1,0), (3636,7,1), (3655,8,1), (3761,1,0), (3764,9,1), (3784,7,1), (3864,1,0), (3865,1,0), (3893,3,2), (3953,14,1), (3968,5,1), (3974,1,0), 
  (3975,1,0), (3981,11,1), (3993,36,1), (4038,1,0), (4127,1,0), (4141,1,0), (4142,1,0), (4142,3,1), (4146,6,1), (4151,5,0), (4153,1,0), (4154,1,0), 
  (4157,1,0), (4158,1,0), (4184,1,0), (4185,1,0), (4190,3,1), (4209,4,1), (4226,1,0), (4229,1,0), (4230,1,0), (4237,1,0), (4253,1,0), (4256,9,0)] ++
  [(4259,4,0), (4270,1,0), (4270,1,0), (4306,4,0), (4310,5,0), (4330,1,0), (4330,1,0), (4335,4,0), (4340,10,0), (4341,1,0), (4344,4,0), (4352,1,0), 
  (4355,8,0), (4356,7,0), (4359,4,0), (4360,1,0), (4360,1,0), (4363,6,0), (4364,1,0), (4368,3,0), (4370,8,0), (4371,5,0), (4375,1,0), (4376,1,0), 
  (4376,1,0), (4379,9,0), (4380,5,0), (4386,1,0), (4387,6,0), (4388,1,0), (4397,1,0), (4398,8,0), (4400,1,0), (4400,1,0), (4403,1,0), (4403,1,0), 
  (4404,1,0), (4406,7,0), (4407,5,0), (4411,5,0), (4412,1,0), (4412,1,0), (4413,1,0), (4413,1,0), (4414,1,0), (4414,1,0), (4419,8,0), (4420,4,0), 
  (4421,1,0), (4427,8,0), (4428,3,0), (4443,7,0), (4444,1,0), (4445,1,0), (4445,1,0), (4451,10,0), (4452,1,0), (4458,1,0), (4458,1,0), (4459,7,0), 
  (4465,1,0), (4465,1,0), (4466,9,0), (4482,1,0), (4483,10,0), (4499,3,0), (4500,1,0), (4509,6,0), (4510,1,0), (4512,10,0), (4515,10,0), (4516,1,0), 
  (4517,9,0), (4520,6,0), (4521,9,0), (4547,14,0), (4553,14,0), (4554,14,0), (4555,5,0), (4563,10,0), (4564,7,0), (4569,4,0), (4591,1,0), (4591,1,0), 
  (4592,1,0), (4592,1,0), (4595,5,0), (4596,1,0), (4596,1,0), (4597,1,0), (4932,10,0), (4933,6,0), (4957,3,1), (5649,1,0), (5649,1,0), (5650,13,0), 
  (5807,5,0), (5811,7,0), (5876,1,0), (5880,1,0), (5881,3,0), (5886,1,0), (5906,3,1), (5938,1,0), (5939,1,0), (5970,1,0), (5971,1,0), (6002,1,0), 
  (6003,1,0), (6068,1,0), (6069,1,0), (6071,7,1), (6086,1,0), (6089,11,1), (6109,1,0), (6155,3,1), (6159,1,0), (6277,1,0), (6278,1,0), (6313,1,0), 
  (6432,3,1), (6439,1,0), (6440,1,0), (6450,1,0), (6457,3,1), (6679,1,0), (6680,1,0), (6683,1,0), (6742,1,0), (6744,7,1), (6752,1,0), (6754,1,0), 
  (6757,8,1), (6771,10,1), (6783,1,0), (6832,14,1), (6847,16,1), (6912,4,1), (6964,1,0), (6966,5,1), (6972,1,0), (6978,1,0), (7019,9,1), (7040,1,0)] ++
  [(7041,1,0), (7074,4,1), (7080,1,0), (7081,1,0), (7083,3,1), (7113,1,0), (7113,1,0), (7142,1,0), (7144,1,0), (7145,1,0), (7149,1,0), (7151,3,1), 
  (7212,8,1), (7222,1,0), (7223,1,0), (7376,3,1), (7380,13,1), (7394,7,1), (7405,1,0), (7408,16,0), (7409,16,0), (7410,14,0), (7411,16,0), (7412,8,0), 
  (7416,1,0), (7417,1,0), (7446,3,0), (7447,5,0), (7448,10,0), (7450,4,0), (7460,3,0), (7584,16,0), (7585,16,0), (7586,16,0), (7587,12,0), (7588,16,0), 
  (7589,16,0), (7590,13,0), (7591,3,1), (7593,4,0), (7594,15,0), (7616,65,1), (7680,14,0), (7681,14,0), (7682,9,0), (7688,1,0), (7699,7,0), (7722,1,0), 
  (7726,4,0), (7758,4,0), (7774,1,0), (7774,1,0), (7821,7,0), (7828,7,0), (8400,13,1), (8417,1,0), (8421,12,1), (11503,3,1), (11647,1,0), (11744,32,1), 
  (12330,4,1), (12441,1,0), (12442,1,0), (42607,1,0), (42612,10,1), (42654,1,0), (42655,1,0), (42736,1,0), (42737,1,0), (43010,1,0), (43014,1,0), 
  (43019,1,0), (43045,1,0), (43046,1,0), (43052,1,0), (43204,1,0), (43205,1,0), (43232,18,1), (43263,1,0), (43302,8,1), (43335,11,1), (43392,3,1), 
  (43443,1,0), (43446,4,1), (43452,1,0), (43453,1,0), (43493,1,0), (43561,6,1), (43569,1,0), (43570,1,0), (43573,1,0), (43574,1,0), (43587,1,0), 
  (43596,1,0), (43644,1,0), (43696,1,0), (43698,3,1), (43703,1,0), (43704,1,0), (43710,1,0), (43711,1,0), (43713,1,0), (43756,1,0), (43757,1,0), 
  (43766,1,0), (44005,1,0), (44008,1,0), (44013,1,0), (57360,16,0), (57361,16,0), (57362,16,0), (57363,16,0), (57364,16,0), (57365,16,0), (57366,16,0), 
  (57367,16,0), (57368,16,0), (57369,16,0), (57370,16,0), (57371,16,0), (57372,16,0), (57373,16,0), (57374,16,0), (64286,1,0), (65024,16,1), 
  (65056,16,1)]

/-- `unicode_Mc`, parts/text.c 736; 468 entries. -/
def runsMc : List (Int × Nat × Nat) :=
  [(2307,1,0), (2363,1,0), (2366,3,1), (2377,4,1), (2382,1,0), (2383,1,0), (2434,1,0), (2435,1,0), (2494,3,1), (2503,1,0), (2504,1,0), (2507,1,0), 
  (2508,1,0), (2519,1,0), (2563,1,0), (2622,3,1), (2691,1,0), (2750,3,1), (2761,1,0), (2763,1,0), (2764,1,0), (2818,1,0), (2819,1,0), (2878,1,0), 
  (2880,1,0), (2887,1,0), (2888,1,0), (2891,1,0), (2892,1,0), (2903,1,0), (3006,1,0), (3007,1,0), (3009,1,0), (3010,1,0), (3014,3,1), (3018,3,1), 
  (3031,1,0), (3073,3,1), (3137,4,1), (3202,1,0), (3203,1,0), (3262,1,0), (3264,5,1), (3271,1,0), (3272,1,0), (3274,1,0), (3275,1,0), (3285,1,0), 
  (3286,1,0), (3315,1,0), (3330,1,0), (3331,1,0), (3390,3,1), (3398,3,1), (3402,3,1), (3415,1,0), (3458,1,0), (3459,1,0), (3535,3,1), (3544,8,1), 
  (3570,1,0), (3571,1,0), (3902,1,0), (3903,1,0), (3967,1,0), (4139,1,0), (4140,1,0), (4145,1,0), (4152,1,0), (4155,1,0), (4156,1,0), (4182,1,0), 
  (4183,1,0), (4194,3,1), (4199,7,1), (4227,1,0), (4228,1,0), (4231,6,1), (4239,1,0), (4250,3,1), (4352,1,0), (4352,1,0), (4360,1,0), (4363,5,0), 
  (4370,1,0), (4372,1,0), (4372,1,0), (4376,1,0), (4379,4,0), (4380,1,0), (4380,1,0), (4386,3,0), (4387,3,0), (4398,3,0), (4400,1,0), (4400,1,0), 
  (4403,1,0), (4403,1,0), (4404,9,0), (4405,1,0), (4406,1,0), (4406,1,0), (4411,3,0), (4412,9,0), (4419,3,0), (4420,3,0), (4427,8,0), (4428,1,0), 
  (4442,1,0), (4443,7,0), (4451,6,0), (4458,3,0), (4459,1,0), (4465,1,0), (4466,3,0), (4482,3,0), (4483,1,0), (4499,9,0), (4500,1,0), (4500,1,0), 
  (4509,7,0), (4510,1,0), (4515,1,0), (4517,1,0), (4517,1,0), (4521,1,0), (4546,1,0), (4547,1,0), (4554,1,0), (4555,1,0), (4555,1,0), (4568,5,0), 
  (4569,3,0), (4591,1,0), (4591,1,0), (4592,1,0), (4595,4,0), (4596,1,0), (5650,3,0), (5877,15,0), (5878,16,0), (5879,16,0), (5880,8,0), (5887,1,0)] ++
  [(5887,1,0), (5909,1,0), (5940,1,0), (6070,1,0), (6078,8,1), (6087,1,0), (6088,1,0), (6435,4,1), (6441,3,1), (6448,1,0), (6449,1,0), (6451,6,1), 
  (6681,1,0), (6682,1,0), (6741,1,0), (6743,1,0), (6753,1,0), (6755,1,0), (6756,1,0), (6765,6,1), (6916,1,0), (6965,1,0), (6971,1,0), (6973,5,1), 
  (6979,1,0), (6980,1,0), (7042,1,0), (7073,1,0), (7078,1,0), (7079,1,0), (7082,1,0), (7143,1,0), (7146,3,1), (7150,1,0), (7154,1,0), (7155,1,0), 
  (7204,8,1), (7220,1,0), (7221,1,0), (7393,1,0), (7415,1,0), (7446,5,0), (7447,3,0), (12334,1,0), (12335,1,0), (43043,1,0), (43044,1,0), (43047,1,0), 
  (43136,1,0), (43137,1,0), (43188,16,1), (43346,1,0), (43347,1,0), (43395,1,0), (43444,1,0), (43445,1,0), (43450,1,0), (43451,1,0), (43454,3,1), 
  (43567,1,0), (43568,1,0), (43571,1,0), (43572,1,0), (43597,1,0), (43643,1,0), (43645,1,0), (43755,1,0), (43758,1,0), (43759,1,0), (43765,1,0), 
  (44003,1,0), (44004,1,0), (44006,1,0), (44007,1,0), (44009,1,0), (44010,1,0), (44012,1,0)]

/-- `unicode_Me`, parts/text.c 740; 13 entries. -/
def runsMe : List (Int × Nat × Nat) := [
  (1160,1,0), (1161,1,0), (6846,1,0), (8413,4,1), (8418,3,1), (42608,3,1)]

/-- `unicode_M`, parts/text.c 744; 1 entries. -/
def runsM : List (Int × Nat × Nat) := [
  (-1,1,0)]

/-- `unicode_Nd`, parts/text.c 747; 760 entries. -/
def runsNd : List (Int × Nat × Nat) := [
  (48,10,1), (1632,10,1), (1776,10,1), (1984,10,1), (2406,10,1), (2534,10,1), (2662,10,1), (2790,10,1), (2918,10,1), (3046,10,1), (3174,10,1), 
  (3302,10,1), (3430,10,1), (3558,10,1), (3664,10,1), (3792,10,1), (3872,10,1), (4160,11,1), (4170,9,0), (4240,10,1), (4307,10,0), (4308,10,0), 
  (4358,10,0), (4367,10,0), (4371,10,0), (4381,10,0), (4399,10,0), (4421,10,0), (4429,10,0), (4453,10,0), (4460,10,0), (4461,16,0), (4462,4,0), 
  (4467,10,0), (4494,10,0), (4501,10,0), (4543,10,0), (4549,10,0), (4565,10,0), (4570,10,0), (4597,10,0), (5651,10,0), (5798,10,0), (5804,10,0), 
  (5813,10,0), (5847,10,0), (6112,10,1), (6160,10,1), (6470,10,1), (6608,10,1), (6784,10,1), (6800,10,1), (6992,10,1), (7088,10,1), (7232,10,1), 
  (7248,10,1), (7375,10,0), (7548,1,0), (7548,1,0), (7549,16,0), (7550,16,0), (7551,16,0), (7700,10,0), (7727,10,0), (7759,10,0), (7775,10,0), 
  (7829,10,0), (8127,10,0), (42528,10,1), (43216,10,1), (43264,10,1), (43472,10,1), (43504,10,1), (43600,10,1), (44016,10,1), (65296,10,1)]

/-- `unicode_Nl`, parts/text.c 751; 236 entries. -/
def runsNl : List (Int × Nat × Nat) := [
  (4116,16,0), (4117,16,0), (4118,16,0), (4119,5,0), (4148,1,0), (4148,1,0), (4157,5,0), (4672,16,0), (4673,16,0), (4674,16,0), (4675,16,0), (4676,16,0), 
  (4677,16,0), (4678,15,0), (5870,3,1), (8544,35,1), (8581,4,1), (12295,1,0), (12321,9,1), (12344,3,1), (42726,10,1)]

/-- `unicode_No`, parts/text.c 755; 915 entries. -/
def runsNo : List (Int × Nat × Nat) := [
  (178,1,0), (179,1,0), (185,1,0), (188,3,1), (2548,6,1), (2930,6,1), (3056,3,1), (3192,7,1), (3416,7,1), (3440,9,1), (3882,10,1), (4112,9,0), 
  (4113,16,0), (4114,16,0), (4115,4,0), (4119,4,0), (4120,1,0), (4120,1,0), (4142,15,0), (4143,12,0), (4146,4,0), (4229,8,0), (4231,7,0), (4234,9,0), 
  (4239,5,0), (4241,6,0), (4251,1,0), (4251,1,0), (4252,16,0), (4253,14,0), (4254,16,0), (4255,16,0), (4260,9,0), (4263,1,0), (4263,1,0), (4265,3,0), 
  (4270,5,0), (4277,8,0), (4279,8,0), (4282,7,0), (4303,6,0), (4326,16,0), (4327,15,0), (4337,3,0), (4338,7,0), (4341,4,0), (4348,7,0), (4357,14,0), 
  (4358,6,0), (4382,15,0), (4383,5,0), (4467,1,0), (4467,1,0), (4494,6,0), (4495,3,0), (4549,6,0), (4550,13,0), (4604,16,0), (4605,5,0), (4969,20,1), 
  (5813,5,0), (5814,1,0), (5814,1,0), (5864,16,0), (5865,7,0), (6128,10,1), (6618,1,0), (7468,16,0), (7469,4,0), (7470,16,0), (7471,4,0), (7478,16,0), 
  (7479,9,0), (7820,9,0), (7879,15,0), (7880,16,0), (7881,16,0), (7882,15,0), (7883,4,0), (7888,15,0), (7889,16,0), (7890,15,0), (7891,14,0), 
  (7952,13,0), (8304,1,0), (8308,6,1), (8320,10,1), (8528,16,1), (8585,1,0), (9312,60,1), (9450,22,1), (10102,30,1), (11517,1,0), (12690,4,1), 
  (12832,10,1), (12872,8,1), (12881,15,1), (12928,10,1), (12977,15,1), (43056,6,1)]

/-- `unicode_N`, parts/text.c 759; 1 entries. -/
def runsN : List (Int × Nat × Nat) := [
  (-1,1,0)]

/-- `unicode_Pc`, parts/text.c 762; 10 entries. -/
def runsPc : List (Int × Nat × Nat) := [
  (95,1,0), (8255,1,0), (8256,1,0), (8276,1,0), (65075,1,0), (65076,1,0), (65101,3,1), (65343,1,0)]

/-- `unicode_Pd`, parts/text.c 766; 27 entries. -/
def runsPd : List (Int × Nat × Nat) := [
  (45,1,0), (1418,1,0), (1470,1,0), (4310,1,0), (4330,1,0), (5120,1,0), (6150,1,0), (8208,6,1), (11799,1,0), (11802,1,0), (11834,1,0), (11835,1,0), 
  (11840,1,0), (11869,1,0), (12316,1,0), (12336,1,0), (12448,1,0), (65073,1,0), (65074,1,0), (65112,1,0), (65123,1,0), (65293,1,0)]

/-- `unicode_Ps`, parts/text.c 770; 79 entries. -/
def runsPs : List (Int × Nat × Nat) := [
  (40,1,0), (91,1,0), (123,1,0), (3898,1,0), (3900,1,0), (5787,1,0), (8218,1,0), (8222,1,0), (8261,1,0), (8317,1,0), (8333,1,0), (8968,1,0), (8970,1,0), 
  (9001,1,0), (10088,7,2), (10181,1,0), (10214,5,2), (10627,11,2), (10712,1,0), (10714,1,0), (10748,1,0), (11810,4,2), (11842,1,0), (11861,4,2), 
  (12296,5,2), (12308,4,2), (12317,1,0), (64831,1,0), (65047,1,0), (65077,8,2), (65095,1,0), (65113,3,2), (65288,1,0), (65339,1,0), (65371,1,0), 
  (65375,1,0), (65378,1,0)]

/-- `unicode_Pe`, parts/text.c 774; 77 entries. -/
def runsPe : List (Int × Nat × Nat) := [
  (41,1,0), (93,1,0), (125,1,0), (3899,1,0), (3901,1,0), (5788,1,0), (8262,1,0), (8318,1,0), (8334,1,0), (8969,1,0), (8971,1,0), (9002,1,0), (10089,7,2), 
  (10182,1,0), (10215,5,2), (10628,11,2), (10713,1,0), (10715,1,0), (10749,1,0), (11811,4,2), (11862,4,2), (12297,5,2), (12309,4,2), (12318,1,0), 
  (12319,1,0), (64830,1,0), (65048,1,0), (65078,8,2), (65096,1,0), (65114,3,2), (65289,1,0), (65341,1,0), (65373,1,0), (65376,1,0), (65379,1,0)]

/-- `unicode_Pi`, parts/text.c 778; 12 entries. -/
def runsPi : List (Int × Nat × Nat) := [
  (171,1,0), (8216,1,0), (8219,1,0), (8220,1,0), (8223,1,0), (8249,1,0), (11778,1,0), (11780,1,0), (11785,1,0), (11788,1,0), (11804,1,0), (11808,1,0)]

/-- `unicode_Pf`, parts/text.c 782; 10 entries. -/
def runsPf : List (Int × Nat × Nat) := [
  (187,1,0), (8217,1,0), (8221,1,0), (8250,1,0), (11779,1,0), (11781,1,0), (11786,1,0), (11789,1,0), (11805,1,0), (11809,1,0)]

/-- `unicode_Po`, parts/text.c 786; 640 entries. -/
def runsPo : List (Int × Nat × Nat) :=
  [(33,3,1), (37,3,1), (42,3,2), (47,1,0), (58,1,0), (59,1,0), (63,1,0), (64,1,0), (92,1,0), (161,1,0), (167,1,0), (182,1,0), (183,1,0), (191,1,0), 
  (894,1,0), (903,1,0), (1370,6,1), (1417,1,0), (1472,1,0), (1475,1,0), (1478,1,0), (1523,1,0), (1524,1,0), (1545,1,0), (1546,1,0), (1548,1,0), 
  (1549,1,0), (1563,1,0), (1565,3,1), (1642,4,1), (1748,1,0), (1792,14,1), (2039,3,1), (2096,15,1), (2142,1,0), (2404,1,0), (2405,1,0), (2416,1,0), 
  (2557,1,0), (2678,1,0), (2800,1,0), (3191,1,0), (3204,1,0), (3572,1,0), (3663,1,0), (3674,1,0), (3675,1,0), (3844,15,1), (3860,1,0), (3973,1,0), 
  (4048,5,1), (4057,1,0), (4058,1,0), (4112,3,0), (4153,1,0), (4157,1,0), (4170,6,1), (4182,1,0), (4229,1,0), (4241,1,0), (4243,1,0), (4261,9,0), 
  (4263,1,0), (4271,7,0), (4275,7,0), (4281,4,0), (4341,5,0), (4344,4,0), (4347,1,0), (4356,7,0), (4363,4,0), (4364,1,0), (4364,1,0), (4372,4,0), 
  (4375,1,0), (4375,1,0), (4380,5,0), (4381,4,0), (4387,6,0), (4394,1,0), (4413,4,0), (4420,5,0), (4421,3,0), (4428,1,0), (4444,15,0), (4445,8,0), 
  (4452,3,0), (4454,13,0), (4459,1,0), (4467,3,0), (4483,1,0), (4500,3,0), (4510,1,0), (4515,1,0), (4516,7,0), (4521,5,0), (4522,3,0), (4528,10,0), 
  (4542,1,0), (4548,5,0), (4551,1,0), (4551,1,0), (4591,1,0), (4591,1,0), (4596,13,0), (4607,1,0), (4679,5,0), (4863,1,0), (4863,1,0), (4960,9,1), 
  (5742,1,0), (5798,1,0), (5798,1,0), (5807,1,0), (5811,5,0), (5812,1,0), (5846,3,0), (5865,4,0), (5867,3,1), (5886,1,0), (5941,1,0), (5942,1,0), 
  (6100,3,1), (6104,3,1), (6144,6,1), (6151,4,1), (6468,1,0), (6469,1,0), (6686,1,0), (6687,1,0), (6816,7,1), (6824,6,1), (6990,1,0), (6991,1,0), 
  (7002,7,1), (7037,3,1), (7113,1,0), (7164,4,1), (7227,5,1), (7294,1,0), (7295,1,0), (7360,8,1), (7379,1,0), (7592,5,0), (7775,1,0), (7829,1,0)] ++
  [(7829,1,0), (8214,1,0), (8215,1,0), (8224,8,1), (8240,9,1), (8251,4,1), (8257,3,1), (8263,11,1), (8275,1,0), (8277,10,1), (11513,4,1), (11518,1,0), 
  (11519,1,0), (11632,1,0), (11776,1,0), (11777,1,0), (11782,3,1), (11787,1,0), (11790,9,1), (11800,1,0), (11801,1,0), (11803,1,0), (11806,1,0), 
  (11807,1,0), (11818,5,1), (11824,10,1), (11836,4,1), (11841,1,0), (11843,13,1), (11858,3,1), (12289,3,1), (12349,1,0), (12539,1,0), (42238,1,0), 
  (42239,1,0), (42509,3,1), (42611,1,0), (42622,1,0), (42738,6,1), (43124,4,1), (43214,1,0), (43215,1,0), (43256,3,1), (43260,1,0), (43310,1,0), 
  (43311,1,0), (43359,1,0), (43457,13,1), (43486,1,0), (43487,1,0), (43612,4,1), (43742,1,0), (43743,1,0), (43760,1,0), (43761,1,0), (44011,1,0), 
  (65040,7,1), (65049,1,0), (65072,1,0), (65093,1,0), (65094,1,0), (65097,4,1), (65104,3,1), (65108,4,1), (65119,3,1), (65128,1,0), (65130,1,0), 
  (65131,1,0), (65281,3,1), (65285,3,1), (65290,3,2), (65295,1,0), (65306,1,0), (65307,1,0), (65311,1,0), (65312,1,0), (65340,1,0), (65377,1,0), 
  (65380,1,0), (65381,1,0)]

/-- `unicode_P`, parts/text.c 790; 1 entries. -/
def runsP : List (Int × Nat × Nat) := [
  (-1,1,0)]

/-- `unicode_Sm`, parts/text.c 793; 950 entries. -/
def runsSm : List (Int × Nat × Nat) := [
  (43,1,0), (60,3,1), (124,1,0), (126,1,0), (172,1,0), (177,1,0), (215,1,0), (247,1,0), (1014,1,0), (1542,3,1), (4312,1,0), (4312,1,0), (7532,1,0), 
  (7533,4,2), (7540,5,2), (7919,1,0), (7919,1,0), (8260,1,0), (8274,1,0), (8314,3,1), (8330,3,1), (8472,1,0), (8512,5,1), (8523,1,0), (8592,5,1), 
  (8602,1,0), (8603,1,0), (8608,1,0), (8611,1,0), (8614,1,0), (8622,1,0), (8654,1,0), (8655,1,0), (8658,1,0), (8660,1,0), (8692,268,1), (8992,1,0), 
  (8993,1,0), (9084,1,0), (9115,25,1), (9180,6,1), (9655,1,0), (9665,1,0), (9720,8,1), (9839,1,0), (10176,5,1), (10183,31,1), (10224,16,1), 
  (10496,131,1), (10649,63,1), (10716,32,1), (10750,258,1), (11056,21,1), (11079,6,1), (64297,1,0), (65122,1,0), (65124,3,1), (65291,1,0), (65308,3,1), 
  (65372,1,0), (65374,1,0), (65506,1,0), (65513,4,1)]

/-- `unicode_Sc`, parts/text.c 797; 63 entries. -/
def runsSc : List (Int × Nat × Nat) := [
  (36,1,0), (162,4,1), (1423,1,0), (1547,1,0), (2046,1,0), (2047,1,0), (2546,1,0), (2547,1,0), (2555,1,0), (2801,1,0), (3065,1,0), (3647,1,0), 
  (4605,3,0), (4606,1,0), (6107,1,0), (7727,1,0), (7883,1,0), (8352,33,1), (43064,1,0), (65020,1,0), (65129,1,0), (65284,1,0), (65504,1,0), (65505,1,0), 
  (65509,1,0), (65510,1,0)]

/-- `unicode_Sk`, parts/text.c 801; 125 entries. -/
def runsSk : List (Int × Nat × Nat) := [
  (94,1,0), (96,1,0), (168,1,0), (175,1,0), (180,1,0), (184,1,0), (706,4,1), (722,14,1), (741,7,1), (749,1,0), (751,17,1), (885,1,0), (900,1,0), 
  (901,1,0), (2184,1,0), (7999,5,0), (8125,1,0), (8127,3,1), (8141,3,1), (8157,3,1), (8173,3,1), (8189,1,0), (8190,1,0), (12443,1,0), (12444,1,0), 
  (42752,23,1), (42784,1,0), (42785,1,0), (42889,1,0), (42890,1,0), (43867,1,0), (43882,1,0), (43883,1,0), (64434,17,1), (65342,1,0), (65344,1,0), 
  (65507,1,0)]

/-- `unicode_So`, parts/text.c 805; 7376 entries. -/
def runsSo : List (Int × Nat × Nat) :=
  [(166,1,0), (169,1,0), (174,1,0), (176,1,0), (1154,1,0), (1421,1,0), (1422,1,0), (1550,1,0), (1551,1,0), (1758,1,0), (1769,1,0), (1789,1,0), (1790,1,0), 
  (2038,1,0), (2554,1,0), (2928,1,0), (3059,6,1), (3066,1,0), (3199,1,0), (3407,1,0), (3449,1,0), (3841,3,1), (3859,1,0), (3861,3,1), (3866,6,1), 
  (3892,3,2), (4030,8,1), (4039,6,1), (4046,1,0), (4047,1,0), (4053,4,1), (4115,9,0), (4119,7,0), (4120,13,0), (4121,13,0), (4122,1,0), (4125,16,0), 
  (4126,16,0), (4127,13,0), (4231,1,0), (4231,1,0), (4254,1,0), (4255,1,0), (4268,1,0), (4467,1,0), (4605,8,0), (4606,15,0), (4607,1,0), (4607,1,0), 
  (5008,10,1), (5741,1,0), (5811,4,0), (5812,1,0), (6464,1,0), (6622,34,1), (7009,10,1), (7028,9,1), (7113,1,0), (7360,16,0), (7361,16,0), (7362,16,0), 
  (7363,16,0), (7364,16,0), (7365,16,0), (7366,16,0), (7367,16,0), (7368,16,0), (7369,16,0), (7370,16,0), (7371,16,0), (7372,16,0), (7373,16,0), 
  (7374,16,0), (7376,16,0), (7377,16,0), (7378,16,0), (7379,16,0), (7380,16,0), (7381,16,0), (7382,16,0), (7383,16,0), (7384,16,0), (7385,16,0), 
  (7386,16,0), (7387,16,0), (7388,16,0), (7389,16,0), (7390,16,0), (7391,16,0), (7392,16,0), (7393,16,0), (7394,16,0), (7395,16,0), (7396,16,0), 
  (7397,16,0), (7398,16,0), (7399,16,0), (7400,16,0), (7401,16,0), (7402,16,0), (7403,4,0), (7413,16,0), (7414,16,0), (7415,16,0), (7416,16,0), 
  (7417,16,0), (7418,16,0), (7419,16,0), (7420,4,0), (7424,16,0), (7425,16,0), (7426,16,0), (7427,16,0), (7428,16,0), (7429,16,0), (7430,16,0), 
  (7431,16,0), (7432,16,0), (7433,16,0), (7434,16,0), (7435,16,0), (7436,16,0), (7437,16,0), (7438,16,0), (7439,6,0), (7440,16,0), (7441,16,0), 
  (7442,14,0), (7443,16,0), (7444,16,0), (7445,16,0), (7446,8,0), (7448,6,0), (7449,16,0), (7450,12,0), (7451,16,0), (7452,16,0), (7453,16,0)] ++
  [(7454,11,0), (7456,16,0), (7457,16,0), (7458,16,0), (7459,16,0), (7460,3,0), (7472,16,0), (7473,16,0), (7474,16,0), (7475,16,0), (7476,16,0), 
  (7477,7,0), (7552,16,0), (7553,16,0), (7554,16,0), (7555,16,0), (7556,16,0), (7557,16,0), (7558,16,0), (7559,16,0), (7560,16,0), (7561,16,0), 
  (7562,16,0), (7563,16,0), (7564,16,0), (7565,16,0), (7566,16,0), (7567,16,0), (7568,16,0), (7569,16,0), (7570,16,0), (7571,16,0), (7572,16,0), 
  (7573,16,0), (7574,16,0), (7575,16,0), (7576,16,0), (7577,16,0), (7578,16,0), (7579,16,0), (7580,16,0), (7581,16,0), (7582,16,0), (7583,16,0), 
  (7587,4,0), (7590,3,0), (7591,15,0), (7592,6,0), (7700,1,0), (7882,1,0), (7890,1,0), (7936,16,0), (7937,16,0), (7938,12,0), (7939,16,0), (7940,16,0), 
  (7941,16,0), (7942,16,0), (7943,16,0), (7944,16,0), (7945,4,0), (7946,15,0), (7947,15,0), (7948,15,0), (7949,15,0), (7950,16,0), (7951,6,0), 
  (7952,3,0), (7953,16,0), (7954,16,0), (7955,16,0), (7956,16,0), (7957,16,0), (7958,16,0), (7959,16,0), (7960,16,0), (7961,16,0), (7962,14,0), 
  (7966,10,0), (7967,16,0), (7968,3,0), (7969,16,0), (7970,16,0), (7971,12,0), (7972,9,0), (7973,1,0), (7973,1,0), (7974,6,0), (7984,16,0), (7985,16,0), 
  (7986,16,0), (7987,16,0), (7988,16,0), (7989,16,0), (7990,16,0), (7991,16,0), (7992,16,0), (7993,16,0), (7994,16,0), (7995,16,0), (7996,16,0), 
  (7997,16,0), (7998,16,0), (7999,11,0), (8000,16,0), (8001,16,0), (8002,16,0), (8003,16,0), (8004,16,0), (8005,16,0), (8006,16,0), (8007,16,0), 
  (8008,16,0), (8009,16,0), (8010,16,0), (8011,16,0), (8012,16,0), (8013,16,0), (8014,16,0), (8015,16,0), (8016,16,0), (8017,16,0), (8018,16,0), 
  (8019,16,0), (8020,16,0), (8021,16,0), (8022,16,0), (8023,16,0), (8024,16,0), (8025,16,0), (8026,16,0), (8027,16,0), (8028,16,0), (8029,16,0)] ++
  [(8030,16,0), (8031,16,0), (8032,16,0), (8033,16,0), (8034,16,0), (8035,16,0), (8036,16,0), (8037,16,0), (8038,16,0), (8039,16,0), (8040,16,0), 
  (8041,16,0), (8042,16,0), (8043,16,0), (8044,16,0), (8045,12,0), (8046,13,0), (8047,13,0), (8048,16,0), (8049,16,0), (8050,16,0), (8051,16,0), 
  (8052,16,0), (8053,16,0), (8054,16,0), (8055,12,0), (8056,16,0), (8057,16,0), (8058,16,0), (8059,16,0), (8060,16,0), (8061,10,0), (8062,12,0), 
  (8063,1,0), (8064,12,0), (8065,16,0), (8066,16,0), (8067,16,0), (8068,8,0), (8069,10,0), (8070,16,0), (8071,16,0), (8072,8,0), (8073,16,0), 
  (8074,14,0), (8075,12,0), (8076,1,0), (8076,1,0), (8080,16,0), (8081,16,0), (8082,16,0), (8083,16,0), (8084,16,0), (8085,16,0), (8086,16,0), 
  (8087,16,0), (8088,16,0), (8089,16,0), (8090,16,0), (8091,16,0), (8092,16,0), (8093,16,0), (8094,16,0), (8095,16,0), (8096,16,0), (8097,16,0), 
  (8098,16,0), (8099,16,0), (8100,16,0), (8101,4,0), (8102,14,0), (8103,13,0), (8104,11,0), (8105,16,0), (8106,16,0), (8107,16,0), (8108,9,0), 
  (8109,14,0), (8110,10,0), (8111,9,0), (8112,16,0), (8113,16,0), (8114,16,0), (8115,16,0), (8116,16,0), (8117,16,0), (8118,16,0), (8119,16,0), 
  (8120,16,0), (8121,15,0), (8122,16,0), (8123,16,0), (8124,16,0), (8125,16,0), (8126,16,0), (8448,1,0), (8449,1,0), (8451,4,1), (8456,1,0), (8457,1,0), 
  (8468,1,0), (8470,1,0), (8471,1,0), (8478,6,1), (8485,3,2), (8494,1,0), (8506,1,0), (8507,1,0), (8522,1,0), (8524,1,0), (8525,1,0), (8527,1,0), 
  (8586,1,0), (8587,1,0), (8597,5,1), (8604,4,1), (8609,1,0), (8610,1,0), (8612,1,0), (8613,1,0), (8615,7,1), (8623,31,1), (8656,1,0), (8657,3,2), 
  (8662,30,1), (8960,8,1), (8972,20,1), (8994,7,1), (9003,81,1), (9085,30,1), (9140,40,1), (9186,72,1), (9280,11,1), (9372,78,1), (9472,183,1)] ++
  [(9656,9,1), (9666,54,1), (9728,111,1), (9840,248,1), (10132,44,1), (10240,256,1), (11008,48,1), (11077,1,0), (11078,1,0), (11085,39,1), (11126,32,1), 
  (11159,105,1), (11493,6,1), (11856,1,0), (11857,1,0), (11904,26,1), (11931,89,1), (12032,214,1), (12272,16,1), (12292,1,0), (12306,1,0), (12307,1,0), 
  (12320,1,0), (12342,1,0), (12343,1,0), (12350,1,0), (12351,1,0), (12688,1,0), (12689,1,0), (12694,10,1), (12736,38,1), (12783,1,0), (12800,31,1), 
  (12842,30,1), (12880,1,0), (12896,32,1), (12938,39,1), (12992,320,1), (19904,64,1), (42128,55,1), (43048,4,1), (43062,1,0), (43063,1,0), (43065,1,0), 
  (43639,3,1), (64832,16,1), (64975,1,0), (65021,3,1), (65508,1,0), (65512,1,0), (65517,1,0), (65518,1,0), (65532,1,0), (65533,1,0)]

/-- `unicode_S`, parts/text.c 809; 1 entries. -/
def runsS : List (Int × Nat × Nat) := [
  (-1,1,0)]

/-- `unicode_Zs`, parts/text.c 812; 17 entries. -/
def runsZs : List (Int × Nat × Nat) := [
  (32,1,0), (160,1,0), (5760,1,0), (8192,11,1), (8239,1,0), (8287,1,0), (12288,1,0)]

/-- `unicode_Zl`, parts/text.c 816; 1 entries. -/
def runsZl : List (Int × Nat × Nat) := [
  (8232,1,0)]

/-- `unicode_Zp`, parts/text.c 820; 1 entries. -/
def runsZp : List (Int × Nat × Nat) := [
  (8233,1,0)]

/-- `unicode_Z`, parts/text.c 824; 1 entries. -/
def runsZ : List (Int × Nat × Nat) := [
  (-1,1,0)]

/-- `unicode_Cc`, parts/text.c 827; 65 entries. -/
def runsCc : List (Int × Nat × Nat) := [
  (0,32,1), (127,33,1)]

/-- `unicode_Cf`, parts/text.c 831; 170 entries. -/
def runsCf : List (Int × Nat × Nat) := [
  (173,1,0), (1536,6,1), (1564,1,0), (1757,1,0), (1807,1,0), (2192,1,0), (2193,1,0), (2274,1,0), (4363,1,0), (4364,1,0), (4931,16,0), (6158,1,0), 
  (7114,4,0), (7447,8,0), (8203,5,1), (8234,5,1), (8288,5,1), (8294,10,1), (57344,1,0), (57346,16,0), (57347,16,0), (57348,16,0), (57349,16,0), 
  (57350,16,0), (57351,16,0), (65279,1,0), (65529,3,1)]

/-- `unicode_Cs`, parts/text.c 835; 1 entries. -/
def runsCs : List (Int × Nat × Nat) := [
  (-1,1,0)]

/-- `unicode_Co`, parts/text.c 838; 1 entries. -/
def runsCo : List (Int × Nat × Nat) := [
  (-1,1,0)]

/-- `unicode_Cn`, parts/text.c 841; 1 entries. -/
def runsCn : List (Int × Nat × Nat) := [
  (-1,1,0)]

/-- `unicode_C`, parts/text.c 844; 1 entries. -/
def runsC : List (Int × Nat × Nat) := [
  (-1,1,0)]

/-- `unicode_get_category_part`, parts/text.c 856-868: the table of a category, as runs. -/
def categoryRuns : String → Option (List (Int × Nat × Nat))
  | "Lu" => some runsLu
  | "Ll" => some runsLl
  | "Lt" => some runsLt
  | "LC" => some runsLC
  | "Lm" => some runsLm
  | "Lo" => some runsLo
  | "L" => some runsL
  | "Mn" => some runsMn
  | "Mc" => some runsMc
  | "Me" => some runsMe
  | "M" => some runsM
  | "Nd" => some runsNd
  | "Nl" => some runsNl
  | "No" => some runsNo
  | "N" => some runsN
  | "Pc" => some runsPc
  | "Pd" => some runsPd
  | "Ps" => some runsPs
  | "Pe" => some runsPe
  | "Pi" => some runsPi
  | "Pf" => some runsPf
  | "Po" => some runsPo
  | "P" => some runsP
  | "Sm" => some runsSm
  | "Sc" => some runsSc
  | "Sk" => some runsSk
  | "So" => some runsSo
  | "S" => some runsS
  | "Zs" => some runsZs
  | "Zl" => some runsZl
  | "Zp" => some runsZp
  | "Z" => some runsZ
  | "Cc" => some runsCc
  | "Cf" => some runsCf
  | "Cs" => some runsCs
  | "Co" => some runsCo
  | "Cn" => some runsCn
  | "C" => some runsC
  | _ => none

/-- The table of a category. -/
def categoryPart (name : String) : Option (List Int) := (categoryRuns name).map expandRuns

/-- `unicode_lookup_category_parts`, parts/text.c 847-854 with the macro in 656-694. -/
def categoryParts : String → Option (List String)
  | "Lu" => some ["Lu"]
  | "Ll" => some ["Ll"]
  | "Lt" => some ["Lt"]
  | "LC" => some ["Lu", "Ll", "Lt"]
  | "Lm" => some ["Lm"]
  | "Lo" => some ["Lo"]
  | "L" => some ["Lu", "Ll", "Lt", "Lm", "Lo"]
  | "Mn" => some ["Mn"]
  | "Mc" => some ["Mc"]
  | "Me" => some ["Me"]
  | "M" => some ["Mn", "Mc", "Me"]
  | "Nd" => some ["Nd"]
  | "Nl" => some ["Nl"]
  | "No" => some ["No"]
  | "N" => some ["Nd", "Nl", "No"]
  | "Pc" => some ["Pc"]
  | "Pd" => some ["Pd"]
  | "Ps" => some ["Ps"]
  | "Pe" => some ["Pe"]
  | "Pi" => some ["Pi"]
  | "Pf" => some ["Pf"]
  | "Po" => some ["Po"]
  | "P" => some ["Pc", "Pd", "Ps", "Pe", "Pi", "Pf", "Po"]
  | "Sm" => some ["Sm"]
  | "Sc" => some ["Sc"]
  | "Sk" => some ["Sk"]
  | "So" => some ["So"]
  | "S" => some ["Sm", "Sc", "Sk", "So"]
  | "Zs" => some ["Zs"]
  | "Zl" => some ["Zl"]
  | "Zp" => some ["Zp"]
  | "Z" => some ["Zs", "Zl", "Zp"]
  | "Cc" => some ["Cc"]
  | "Cf" => some ["Cf"]
  | "Cs" => some ["Cs"]
  | "Co" => some ["Co"]
  | "Cn" => some ["Cn"]
  | "C" => some ["Cc", "Cf", "Cs", "Co", "Cn"]
  | _ => none

/-- All category names, parts/text.c 656-694. -/
def categoryNames : List String := ["Lu", "Ll", "Lt", "LC", "Lm", "Lo", "L", "Mn", "Mc", "Me", "M", "Nd", "Nl", "No", "N", "Pc", "Pd", "Ps", "Pe", "Pi", "Pf", "Po", "P", "Sm", "Sc", "Sk", "So", "S", "Zs", "Zl", "Zp", "Z", "Cc", "Cf", "Cs", "Co", "Cn", "C"]

/-- The loop of `category_has_code`, parts/text.c 880-898: `start` and `stop` are the indexes of the
    first and last item.  The fuel is the size of the table; `none` would be a loop that does not end or an access outside of it. -/
def hasCodeLoop (code : Int) (cat : List Int) : Nat → Nat → Nat → Option Bool
  | 0, _, _ => none
  | fuel + 1, start, stop =>
    match cat[start]?, cat[stop]? with
    | some a, some b =>
      if start = stop then some (a == code)
      else if start + 1 = stop then some (a == code || b == code)
      else
        let i := start + (stop - start) / 2
        match cat[i]? with
        | none => none
        | some x =>
          if x = code then some true
          else if x < code then hasCodeLoop code cat fuel (i + 1) stop
          else hasCodeLoop code cat fuel start (i - 1)
    | _, _ => none

/-- `category_has_code`, parts/text.c 870-899. -/
def categoryHasCode (code : Int) (cat : List Int) : Option Bool :=
  if cat.length = 0 then some false
  else if cat.length = 1 then some (cat.head? == some code)
  else hasCodeLoop code cat cat.length 0 (cat.length - 1)

end Xmq
