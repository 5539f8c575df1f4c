/-!
Generated by tools/gen_wk.py: the parameter tables of the Weickenmeier-Kohl fit, in units of 1e-5,
/repo/ebsdtorch/crystallography/scattering_factors/scattering_factors_WK.py (the same tables are in scattering_factors_Hybrid.py).
-/
namespace Verif.Scat

/-- scattering_factors_WK.py:60-161 `wk_A_param`, times 100000; row `i` belongs to element `i + 1`. -/
def wkA : List (List Int) :=
  [[427, 957, 802, 209],
   [1217, 2616, -884, 1841],
   [251, 3576, 988, 2370],
   [1596, 2959, 4024, 1001],
   [3652, 1140, 5677, 1506],
   [4102, 4911, 5296, 61],
   [4123, 5740, 6529, 373],
   [3547, 3133, 10865, 1615],
   [3957, 7225, 9581, 792],
   [2597, 2197, 13762, 5394],
   [3283, 8858, 11688, 2516],
   [3833, 17124, 3649, 4134],
   [4388, 17743, 5047, 3957],
   [3812, 17833, 6280, 5605],
   [4166, 17817, 9479, 4463],
   [4003, 18346, 12218, 3753],
   [4245, 17645, 15814, 3011],
   [5011, 16667, 17074, 4358],
   [4058, 17582, 20943, 2922],
   [4001, 17416, 20986, 5497],
   [9685, 14777, 20981, 4852],
   [6667, 17356, 22710, 5957],
   [5118, 16791, 26700, 6476],
   [3204, 18460, 30764, 5052],
   [3866, 17782, 31329, 6898],
   [5455, 16660, 33208, 6947],
   [5942, 17472, 34423, 6828],
   [6049, 16600, 37302, 7109],
   [8034, 15838, 40116, 5467],
   [2948, 19200, 42222, 7480],
   [16157, 32976, 18964, 6148],
   [16184, 35705, 17618, 7133],
   [6190, 18452, 41600, 12793],
   [15913, 41583, 13385, 10549],
   [16514, 41202, 12900, 13209],
   [15798, 41181, 14254, 14987],
   [16535, 44674, 24245, 3161],
   [16039, 44470, 24661, 5840],
   [16619, 44376, 25613, 6797],
   [16794, 44505, 27188, 7313],
   [16552, 45008, 30474, 6161],
   [17327, 44679, 32441, 6143],
   [16424, 45046, 33749, 7766],
   [18750, 44919, 36323, 5388],
   [16081, 45211, 40343, 6140],
   [16599, 43951, 41478, 8142],
   [16547, 44658, 45401, 5959],
   [17154, 43689, 46392, 7725],
   [15752, 44821, 48186, 8596],
   [15732, 44563, 48507, 10948],
   [16971, 42742, 48779, 13653],
   [14927, 43729, 49444, 16440],
   [18053, 44724, 48163, 15995],
   [13141, 43855, 50035, 22299],
   [31397, 55648, 39828, 4852],
   [32756, 53927, 39830, 7607],
   [30887, 53804, 42265, 9559],
   [28398, 53568, 46662, 10282],
   [35160, 56889, 42010, 7246],
   [33810, 58035, 44442, 7413],
   [35449, 59626, 43868, 7152],
   [35559, 60598, 45165, 7168],
   [38379, 64088, 41710, 6708],
   [40352, 64303, 40488, 8137],
   [36838, 64761, 47222, 6854],
   [38514, 68422, 44359, 6775],
   [37280, 67528, 47337, 8320],
   [39335, 70093, 46774, 6658],
   [40587, 71223, 46598, 6847],
   [39728, 73368, 47795, 6759],
   [40697, 73576, 47481, 8291],
   [40122, 78861, 44658, 8799],
   [41127, 76965, 46563, 10180],
   [39978, 77171, 48541, 11540],
   [39130, 80752, 48702, 11041],
   [40436, 80701, 48445, 12438],
   [38816, 80163, 51922, 13514],
   [39551, 80409, 53365, 13485],
   [40850, 83052, 53325, 11978],
   [40092, 85415, 53346, 12747],
   [41872, 88168, 54551, 9404],
   [43358, 88007, 52966, 12059],
   [40858, 87837, 56392, 13698],
   [41637, 85094, 57749, 16700],
   [38951, 83297, 60557, 20770],
   [41677, 88094, 55170, 21029],
   [50089, 100860, 51420, 5996],
   [47470, 99363, 54721, 9206],
   [47810, 98385, 54905, 12055],
   [47903, 97455, 55883, 14309],
   [48351, 98292, 58877, 12425],
   [48664, 98057, 61483, 12136],
   [46078, 97139, 66506, 13012],
   [49148, 98583, 67674, 9725],
   [50865, 98574, 68109, 9977],
   [46259, 97882, 73056, 12723],
   [46221, 95749, 76259, 14086],
   [48500, 95602, 77234, 13374]]

/-- scattering_factors_WK.py:163-264 `wk_B_param`, times 100000; row `i` belongs to element `i + 1`. -/
def wkB : List (List Int) :=
  [[417218, 1605892, 2678365, 6945643],
   [183008, 720225, 1613585, 1875551],
   [2620, 200907, 1080597, 13049226],
   [38968, 199268, 4686913, 10884167],
   [50627, 368297, 2790586, 7498296],
   [41335, 1098289, 3480286, 17719113],
   [29792, 784094, 2258809, 7259254],
   [17964, 260856, 1179972, 3802912],
   [16403, 396612, 1243903, 4005053],
   [9101, 41253, 502463, 1752954],
   [6008, 207182, 764444, 14600952],
   [7424, 287177, 1806729, 9700854],
   [9086, 253252, 3043883, 9826737],
   [5396, 186461, 2254263, 7243144],
   [5564, 162500, 2445354, 6438264],
   [5214, 140793, 2335691, 5359676],
   [4643, 115677, 1934091, 5288785],
   [7991, 101436, 1567109, 3960819],
   [3352, 82984, 1413679, 20097722],
   [2289, 71288, 1118914, 13502390],
   [12527, 134248, 1243524, 13171112],
   [5198, 86467, 1059984, 10356776],
   [3786, 57160, 830305, 9178068],
   [240, 44931, 792251, 8664058],
   [1836, 41203, 673736, 7630466],
   [3947, 43294, 626864, 7129470],
   [3962, 43253, 605175, 6872437],
   [3558, 39976, 536660, 6246894],
   [5475, 45736, 538252, 6043276],
   [137, 26535, 448040, 5426088],
   [10455, 218391, 904125, 7516958],
   [9890, 206856, 989926, 6813783],
   [1642, 32542, 351888, 4450604],
   [7669, 189297, 1131554, 4632082],
   [8199, 176568, 987254, 3810640],
   [6939, 153446, 898025, 3304365],
   [7044, 159236, 1753592, 21526198],
   [6199, 141265, 1433812, 15280257],
   [6364, 134205, 1366551, 12572522],
   [6565, 125292, 1309355, 10950252],
   [5921, 115624, 1324924, 9869958],
   [6162, 111236, 1276149, 9092026],
   [5081, 99771, 1128925, 8428943],
   [5120, 108672, 1223172, 8527316],
   [4662, 85252, 1051121, 7453949],
   [4933, 79381, 930944, 4117414],
   [4481, 75608, 934354, 6791975],
   [4867, 71518, 840595, 6424400],
   [3672, 64379, 783687, 7337281],
   [3308, 60931, 704977, 6483582],
   [4023, 58192, 629247, 5557061],
   [2842, 50687, 560835, 4828004],
   [3830, 58340, 647550, 4708820],
   [2097, 41007, 452105, 3718178],
   [7813, 145053, 1505933, 19948830],
   [8444, 140227, 1312939, 16056676],
   [7206, 119585, 1155866, 12731371],
   [5717, 98756, 995556, 11731874],
   [8249, 143427, 1237363, 15055968],
   [7081, 131033, 1144403, 14417706],
   [7442, 138680, 1154391, 14372185],
   [7155, 134703, 1100432, 14009138],
   [7794, 155042, 1189283, 14279585],
   [8508, 160712, 1145367, 11664063],
   [6520, 132571, 1016884, 13469034],
   [6850, 143566, 1057719, 13188972],
   [6264, 126756, 946411, 10750194],
   [6750, 135829, 976480, 12740374],
   [6958, 138750, 941888, 12210940],
   [6574, 131578, 913448, 12098209],
   [6517, 129452, 867569, 10034878],
   [6213, 130860, 918871, 9120213],
   [6292, 123499, 842904, 7759815],
   [5693, 115762, 783077, 6714066],
   [5145, 111240, 833441, 6571782],
   [5573, 111159, 800221, 5735021],
   [4855, 99356, 738693, 5175829],
   [4981, 97669, 738024, 4452068],
   [5151, 100803, 803707, 4501758],
   [4693, 98398, 783562, 4651474],
   [5161, 102127, 918455, 6488177],
   [5154, 103252, 849678, 5879463],
   [4200, 90939, 771158, 5779178],
   [4661, 87289, 684038, 5136000],
   [4168, 73697, 586112, 4378613],
   [4488, 83871, 644020, 4351940],
   [5786, 120028, 1385073, 17215909],
   [5239, 103225, 1149796, 14312303],
   [5167, 98867, 1052682, 11218267],
   [4931, 95698, 961135, 9544649],
   [4748, 93369, 989867, 10206961],
   [4660, 89912, 969785, 10023434],
   [4323, 78798, 871624, 9230811],
   [4641, 85867, 951157, 11102754],
   [4918, 87026, 941105, 10498576],
   [3904, 72797, 800506, 8641747],
   [3969, 68167, 729607, 7572682],
   [4291, 69956, 738554, 7718528]]

end Verif.Scat
