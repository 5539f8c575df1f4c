import Verif.Model.Scatter
/-!
Generated by tools/gen_lvd.py: the parameter table of the fit of Lobato and Van Dyck, in units of 1e-23,
/repo/ebsdtorch/crystallography/scattering_factors/scattering_factors_LVD_TCB.py (the same table is in scattering_factors_Hybrid.py:285-388).
-/
namespace Verif.Scat

/-- scattering_factors_LVD_TCB.py:60-163 `fit_LVD`, times 10^23; row `i` belongs to element `i + 1`: five amplitudes, five widths. -/
def lvdTable : List (List Int) :=
  [[647384848835291800000, -49019257678022900000000, 57328416039087650000000, -37940330148399050000000, 55442647477407910000000, 278519885379148900000000, 277620428330644800000000, 277538591050625100000000, 276759302867258800000000, 276511897642927500000000],
   [305745116099835500000000, -6200447791273253000000000, 6400555370846145000000000, -500132578542780600000000, 15179882870052640000000, 108967248726078800000000, 93983879814312110000000, 92528903438626550000000, 82294749870865060000000, 57739311067540220000000],
   [392622272886147900000000, -454861962639998000000000, 219335312878658500000000, 6994512650339657000000, 209864224851937600000, 814276013517280400000000, 498941077007855800000000, 414428999239410900000000, 40192231506568020000000, 15647903471982360000000],
   [339824970557054100000000, -190866886095696700000000, 3907021175392274000000, -1116310102107145000000, 946204465357523100000, 444270178622409500000000, 332451542526423000000000, 18977288034821490000000, 8719186146446036000000, 8278090600413406000000],
   [147279248639329300000000, -40193304219938710000000, 30599895698268940000000, 1961442171731680000000, 97717710608820250000, 374974048281819100000000, 58806653613967380000000, 51563961310301100000000, 12137757008060370000000, 6809824121603139000000],
   [12446608862134330000000000, -22035285707896380000000000, 19523535228047910000000000, -9810793612697997000000000, 1420230412136232000000, 242120849256005600000000, 230537943752425800000000, 204851932106564200000000, 193352552917547400000000, 7689768184783397000000],
   [5813271507025561000000000, -14754240908781270000000000, 13014306564963950000000000, -3961956740841543000000000, 1059577633314809000000, 170044856413471100000000, 155903852601740400000000, 141576827473146900000000, 127841818205455800000000, 5655877984748055000000],
   [2994740452423624000000000, -7761012662552783000000000, 9988177646231442000000000, -5121270055056731000000000, 819618954446032000000, 130283987880010700000000, 115794105258309500000000, 100988549338025100000000, 94332797143326600000000, 4331976113218256000000],
   [94898489450352480000000, -3013339230435549000000000, 5279650781273386000000000, -2270627037952724000000000, 656997664531441000000, 145882933198645900000000, 68877999318768000000000, 65423986934669570000000, 61483613081199430000000, 3428374194950112000000],
   [58274119222090740000000, 37067656184105490000000, -54674496735080920000000, 41405268248020810000000, 519903080863993100000, 128118573143877200000000, 44452089717047760000000, 19865087551048100000000, 18547724665627650000000, 2757383820338858000000],
   [2367006039467926000000000, -2185317861597425000000000, 59249944810894640000000, -2446522903102440000000, 483950221706535800000, 845148773514603100000000, 804096600474298200000000, 62499600052631500000000, 13245039494729640000000, 2339943620498786000000],
   [485501047687149500000000, -266220906476843700000000, 47800123608510800000000, -7023070646920648000000, 398905828104019800000, 594639273842456500000000, 417130312520697900000000, 39826980815037430000000, 16188618583747420000000, 1953450563631035000000],
   [283409561607507500000000, -428004133378261000000000, 442191680548311400000000, -3457744718964006000000, 352385941406079900000, 666235023980533200000000, 55129472222402140000000, 50932896344597380000000, 11178483742533120000000, 1676023518052574000000],
   [287189142611612400000000, -206173501195173500000000, 217114024204478700000000, -6630736330588019000000, 301070709670513700000, 508487103642989600000000, 42917818530512620000000, 36648543419216220000000, 11971061129690340000000, 1439945361283975000000],
   [279151840023151400000000, -436506837823822100000000, 443558455516699000000000, -8096357733994739000000, 267900017966440400000, 390065961865466100000000, 32982596837715000000000, 30608995650588860000000, 10808323254597280000000, 1258944953311868000000],
   [267971415610199500000000, -47425282223075520000000, 51483594898968770000000, -9583600249907225000000, 248871963818935200000, 306889121199971100000000, 37821670218580900000000, 18872181190254880000000, 9233705900314941000000, 1119208772411441000000],
   [256624839980020300000000, -33887635082859170000000, 114584558755515000000000, -92310931654707960000000, 229168002041042200000, 241594920365612400000000, 42141423931021600000000, 10959240497583030000000, 9909554582267530000000, 999665948927521000000],
   [245981746414068500000000, -36419817707699510000000, 25058447722247450000000, -5774370295443458000000, 230143866828583700000, 194004631988856600000000, 39924106788439880000000, 11747240627441220000000, 5678037260236218000000, 915579832920708000000],
   [581107878601454800000000, -5025370965394226000000000, 4886094120598425000000000, 7406285920483829000000, 72780273862622190000, 1266914833990368000000000, 395641039698166500000000, 368385059577154500000000, 10745851756956280000000, 665576789391501100000],
   [2117811615241595000000000, -33904382431746890000000000, 32275695852329670000000000, 6500776738969967000000, 65587436657859350000, 639608619431736200000000, 374024713891749500000000, 364888449922605300000000, 9450906345146735000000, 598520619883758600000],
   [1260351865721486000000000, -27687538205370260000000000, 26887160390734280000000000, 5568241788974580000000, 57707125514539960000, 615625615363852900000000, 308873554266679300000000, 302727663298548300000000, 8188747483752157000000, 538289832050797600000],
   [857595775238129900000000, -21033156346530490000000000, 20609717260154140000000000, 4777739489772619000000, 50571648448032060000, 600780668875581800000000, 260285856745213000000000, 255352345051105600000000, 7114294840241539000000, 485628439383726100000],
   [652768433234789000000000, -20043057682917270000000000, 19801505388999400000000000, 4139115180640056000000, 44745502432985650000, 583552479352448100000000, 223255952381127600000000, 219786018594229000000000, 6239738768285473000000, 440383649079958000000],
   [302831784843691300000000, -9553939330814323000000000, 9617615623521981000000000, 3597773159579877000000, 39149289071842230000, 835911504314631800000000, 180263790264103200000000, 177509488957047200000000, 5481444121431137000000, 399828968916034800000],
   [437417550633122700000000, -16092551091877950000000000, 16027330806032230000000000, 3123038610491624000000, 34696602102093800000, 551031705504928200000000, 168798216402433900000000, 166614047777702400000000, 4833703903212770000000, 364746960053068200000],
   [379810090836859600000000, -9168935493816872000000000, 9144542521554298000000000, 2727543440276047000000, 30337985438377100000, 531712645899433100000000, 149713094884748100000000, 146809241804410500000000, 4272478501289549000000, 332791855231874100000],
   [333037874467544300000000, -7700175964729671000000000, 7707252217905169000000000, 2399046690405699000000, 26825666552394200000, 518135964579543200000000, 132915122265139400000000, 130284928963228900000000, 3806454868263710000000, 305010007991570800000],
   [296908078725286400000000, -7574770691290402000000000, 7603982876253073000000000, 2101621136929670000000, 23115175113515300000, 504180949109380000000000, 118275507921629300000000, 116216545846629900000000, 3374790878830353000000, 278680862070740500000],
   [175207145212145600000000, -4304105234921245000000000, 4407059155435739000000000, 1868761540881447000000, 20172732479162410000, 618750497986187100000000, 100266263628976600000000, 98538431135303030000000, 3029847039161176000000, 255855598748879100000],
   [246637110499459100000000, -6146785413325375000000000, 6201769452374813000000000, 1641601739314162000000, 17248711759538090000, 491028078493815900000000, 96789852032299220000000, 95128383477535550000000, 2696009676675663000000, 234109611046253700000],
   [276010203108428300000000, -3444526142074679000000000, 3522622672440163000000000, 1320671969994199000000, 12594556092824570000, 610128224537662700000000, 76514331355346490000000, 75132862338285970000000, 2248796343172512000000, 206737374278712300000],
   [318241635260000000000000, -5245140378111667000000000, 5296908271622185000000000, 1140961685918648000000, 9509543581450579000, 501719040860914700000000, 71239576443779820000000, 70228019252819400000000, 1967472956940154000000, 184146614494011500000],
   [345642969119604000000000, -3331760444317212000000000, 3357121938553322000000000, 979002295640342100000, 6534348622651725000, 401358016032945200000000, 66235577805062910000000, 64577194105607380000000, 1709193532310115000000, 160301602839420100000],
   [364905047801926400000000, -4368516622212386000000000, 4369202886011548000000000, 844902284199144400000, 3786114741100382000, 325043267112593400000000, 60966620165028900000000, 59697130080212320000000, 1485545127403623000000, 133625587356563000000],
   [383846312224289500000000, -5227234710112339000000000, 5198612794956596000000000, 733955989338044800000, 1646942079513399000, 261189470573232300000000, 56619506287471820000000, 55527932669987390000000, 1297464694324407000000, 102986536855875700000],
   [402541030310827400000000, -4630423320789298000000000, 4572136819041012000000000, 635337959625315700000, 133477845255743000, 213648381443740000000000, 52659116645413120000000, 51413678446457760000000, 1128072422420068000000, 48808985794097040000],
   [338975351595394000000000, 214348348679172400000000, 35432260351097820000000, 374009340085664200000, 30034250234222970, 2057448143681711000000000, 191079945218516400000000, 19741058939660390000000, 813459465343988900000, 29268579105695110000],
   [477092509299826000000000, 147597850155283400000000, 30445135554418870000000, 359474981916728300000, 30008554922827900, 1336688813304128000000000, 133738379577196700000000, 17753236943778280000000, 779105033001826800000, 28225513964853720000],
   [460721019875234000000000, 142801851039840300000000, 29558104557775380000000, 338997840852895100000, 26686297496902240, 1086869055571519000000000, 131137455873124100000000, 16802287078471120000000, 735964545350478300000, 26234328102138730000],
   [431175453406871600000000, 149331578039339500000000, 28123605012888410000000, 309337738455747100000, 25802444851253060, 945896580517490200000000, 133063622845245600000000, 15650687144445360000000, 682410523811735200000, 24981887911070230000],
   [311179039113495400000000, 220259060945803100000000, 27033077491002090000000, 268799194751098100000, 23254948334777920, 1069031413430237000000000, 165316356158933100000000, 14511518571896990000000, 613956351582850500000, 23224023593767250000],
   [283105968432053600000000, 234858137489674500000000, 24510588842969640000000, 235282108218515900000, 23127083834385920, 1043571957589507000000000, 160482868674597200000000, 13169693477460690000000, 554977901383345900000, 22274746376489770000],
   [257179859323352600000000, 245633741957203000000000, 22065844088137150000000, 205531418012438200000, 23213294779369220, 1016431171313775000000000, 153441919244550500000000, 11913861975411040000000, 501853240882988800000, 21459037912086120000],
   [233230030353946600000000, 253578025489049600000000, 19820804213602600000000, 176120130460053500000, 19812941154602450, 992167460159959500000000, 145585668808788100000000, 10768218787334930000000, 447243545654967300000, 19657471623249940000],
   [211352534859470000000000, 258636316155013800000000, 17706391386368650000000, 149737051003056900000, 20548144555562240, 965913725859762300000000, 137106656934329600000000, 9703530275846488000000, 397128509088792100000, 19135519073779830000],
   [64215979618268730000000, 297914814426328900000000, 16815442600427080000000, 133744213878407800000, 19141096824686160, 597479750263406100000000, 143359432541277700000000, 9098684011726770000000, 362410137116162200000, 18068891441604500000],
   [155317216680389600000000, 263930364699988800000000, 14201548695678820000000, 100850460099760900000, 19463842997302440, 815620235758956600000000, 121600887481801500000000, 7900988649158734000000, 296547901363949000000, 17459309591914620000],
   [6153078519928602000000000, -7860167412015821000000000, 2155012926027705000000000, 13768501566419160000000, 32464493094652100000, 311468102533247300000000, 276016983388574500000000, 193551312324722400000000, 7224683472602932000000, 117001629624684500000],
   [422232177901524600000000, -2641213183532026000000000, 2728528527087469000000000, 12161790188413800000000, 30688354637152580000, 607265510403227500000000, 164550178959387900000000, 152257074939506800000000, 6565079146952256000000, 112093851473035600000],
   [514222074642053700000000, -2549454137625767000000000, 2574144875486019000000000, 11177822759219960000000, 29364738473774270000, 527272636474484500000000, 153194959209148300000000, 140257525040087200000000, 6116853872630869000000, 107560815394522300000],
   [624164031831883700000000, -9338687244195522000000000, 9263328758298843000000000, 10341269222129870000000, 28184842689439070000, 426984108082687500000000, 139407746140250200000000, 135566854910434500000000, 5726679496521998000000, 103307954282067400000],
   [737743301813403000000000, -12602510693162810000000000, 12412840500409560000000000, 9599783718185698000000, 27107221639888200000, 346917757783897800000000, 129759810886736600000000, 126771067646066000000000, 5377717501794231000000, 99308457702917680000],
   [964400666272123200000000, -12292443535011250000000000, 11868256481656730000000000, 8950259470255390000000, 26127612149047500000, 272645545366544100000000, 123723425850866000000000, 120062036872249800000000, 5066786822851999000000, 95543788338349730000],
   [1554517496748606000000000, -11824102785674460000000000, 10800952496319700000000000, 8362593419922217000000, 25199186242907390000, 210637340865492700000000, 120860376129512200000000, 115395270567214000000000, 4781893912748243000000, 91988625759261310000],
   [428708739181692300000000, 323250665422965000000000, 67402953356170630000000, 6189080833876976000000, 23561205295219000000, 2265878707985415000000000, 223797386470064200000000, 36899556866431630000000, 4022665752984844000000, 88376189087803510000],
   [624475187390461500000000, 235172271416388500000000, 47427937322225200000000, 6381138742868499000000, 23465128056279240000, 1514313541909856000000000, 145379000604814000000000, 32083564638780180000000, 4043545320946998000000, 85408113128003270000],
   [609788179599509700000000, 219495164736675000000000, 54817279196002260000000, 6166695732226626000000, 22680735586471420000, 1242885443158548000000000, 150535992352023500000000, 33373803971712430000000, 3877445534999988000000, 82404988406486700000],
   [579526879647240500000000, 237022664107843300000000, 47139875690111490000000, 5743682605878668000000, 21897948925965930000, 1428010550582560000000000, 135969015719134500000000, 30201734966351410000000, 3664367981470077000000, 79543452651837110000],
   [560406255377525800000000, 235796259561812900000000, 47600109857288240000000, 5441233743152471000000, 21141460220514980000, 1395174902305747000000000, 131239754917439200000000, 29493370119295650000000, 3486015424623241000000, 76826168266180970000],
   [542908391969770300000000, 233687325360880300000000, 48337355410488190000000, 5146549645574790000000, 20377613286376110000, 1365036494276600000000000, 126759841390319900000000, 28861068157692990000000, 3312918074466093000000, 74234848380126630000],
   [526774445089444600000000, 230855813326305000000000, 49326547902601280000000, 4863562797416966000000, 19630884232067520000, 1336020968273946000000000, 122585856586941700000000, 28291963212786690000000, 3147353971271379000000, 71765802506961520000],
   [512680428517077600000000, 226925534008380600000000, 50420930045330250000000, 4569239924162220000000, 18867505049388620000, 1315815010261290000000000, 118129508243337100000000, 27710703821906290000000, 2979576045495446000000, 69401109919909830000],
   [497962359749809200000000, 224183087455669500000000, 51293396140289370000000, 4298018484983344000000, 18138169248578760000, 1283926630780338000000000, 114705446420486000000000, 27038716093524370000000, 2824187149526020000000, 67148660317399240000],
   [507835830045611400000000, 195744027181659000000000, 59282598322137510000000, 4195020341439256000000, 17524109152831680000, 1051327254690473000000000, 111764941281524600000000, 28438674183367520000000, 2726633276413471000000, 65031086070730370000],
   [471161636657300100000000, 217261950786578900000000, 53971760134286570000000, 3797960045478111000000, 16692376356484170000, 1231094159485391000000000, 108743796767492500000000, 25980496550927550000000, 2532899238951897000000, 62927856696191120000],
   [459075504485146600000000, 213572373036567400000000, 55135556009415250000000, 3560584067185138000000, 15982401685678980000, 1206567406233699000000000, 105811737115864400000000, 25399443891866180000000, 2395087396496492000000, 60948274843328810000],
   [448400110626710800000000, 208904347078539800000000, 56593261831610460000000, 3327035902110630000000, 15244561028289210000, 1187492506915706000000000, 102828493708789600000000, 24890780790807600000000, 2258440655321478000000, 59037444515942450000],
   [437665140786963200000000, 204645150383634100000000, 58066286059158770000000, 3123885283277667000000, 14537486966253570000, 1166530807171395000000000, 100314769675495300000000, 24415329268631240000000, 2136185800007310000000, 57211033845476660000],
   [428308318247419500000000, 199538001453730700000000, 59705357133250430000000, 2909516688695599000000, 13806476903752160000, 1149619059566834000000000, 97703910201882060000000, 23942913297582910000000, 2009122333272558000000, 55437713849226630000],
   [419563840737123300000000, 194333285978645600000000, 61244661728546580000000, 2715152076949324000000, 13059478735192970000, 1141077504566523000000000, 94901192445487740000000, 23495032653530470000000, 1890515762809755000000, 53723364920971110000],
   [435692593296384300000000, 169589204777315900000000, 66390452006847050000000, 2630200187602814000000, 12549731849982380000, 929434514718568900000000, 91050004595742000000000, 23874659591137640000000, 1820985425464623000000, 52155937196356220000],
   [433138405664923500000000, 152764864728680700000000, 73579592289123800000000, 2495263232014026000000, 11874085258105780000, 787684433810288400000000, 94251564262774880000000, 24169948003980600000000, 1728998944485090000000, 50583463131352560000],
   [419726001319642000000000, 146854806774708800000000, 78393124821108820000000, 2324940948643951000000, 11126135860728600000, 693674024894457200000000, 101725276618348300000000, 23894893971507060000000, 1623324330753810000000, 49023900402114900000],
   [397629715819077400000000, 152292684257341800000000, 79770624639056130000000, 2136667415586852000000, 10307868938571730000, 629685779228774900000000, 111289951157691100000000, 23105704067847340000000, 1510135455672045000000, 47468247710502580000],
   [375144381439811900000000, 162768802977632700000000, 78175675545427180000000, 1951708039122916000000, 9431998042934275000, 579754636082953800000000, 118223631077710700000000, 21991358602477020000000, 1398104554814566000000, 45912712582983860000],
   [348401517338711600000000, 179377920416965500000000, 74487835669192030000000, 1754277851624345000000, 8448723515688600000, 543998846080953700000000, 122792134140128100000000, 20620885699290920000000, 1278994017211460000000, 44303222678747860000],
   [159956578198844200000000, 297534452194120500000000, 69509267836688220000000, 1487796274586880000000, 6905495791015833000, 579244447385567500000000, 155300982973226000000000, 18862633593664820000000, 1117634706624533000000, 42277236165555140000],
   [204021563975728300000000, 289922634624825500000000, 63634408381579770000000, 1320719195954083000000, 5673821925001312000, 665819429609627500000000, 141337923778932400000000, 17400010450217900000000, 1006878045302105000000, 40307710569222310000],
   [167593467064870800000000, 300486602969729300000000, 59534001316163550000000, 1171631866230948000000, 4296782976398171000, 552231093211402500000000, 138007223007196300000000, 16222923765594540000000, 901814890416575600000, 37927766747766710000],
   [223522850443105300000000, 268276638651994900000000, 55519492621243330000000, 1072733543662587000000, 3284739920462629000, 502030988960240300000000, 123077590583777700000000, 15224812299286360000000, 828399116906210400000, 35624193893175890000],
   [280342737412510000000000, 271882787966020000000000, 52247591539199960000000, 984537836971042000000, 2345245265083162000, 655876872804534200000000, 116972422516667900000000, 14355669180017810000000, 761976526230039800000, 32962767390298540000],
   [360861020997771400000000, 245056774737198300000000, 47863950010725700000000, 887214235169215200000, 1040019329094673000, 658162594621962800000000, 102772852660588500000000, 13353368063472090000000, 684861238948429800000, 27638887545666600000],
   [424209901057315900000000, 209994342055827900000000, 43283663137992290000000, 802021570381059200000, 72178503085134030, 575280115536080000000000, 87390148919546150000000, 12359995618052470000000, 617600333058570200000, 14149517761723090000],
   [463620095668962300000000, 178063311426987100000000, 40373044395273850000000, 768539554668674000000, 8954159028076436, 488825299780982900000000, 75631052688007470000000, 11730236445224920000000, 593034394242894200000, 7666686638730287000],
   [496592250595070500000000, 143815561507033700000000, 37129920057929810000000, 747256428450201100000, 11411528415258510, 409129378787496300000000, 62922899660255130000000, 11109667869553520000000, 577235010347761800000, 8085118938793825000],
   [530615614475033200000000, 111733160236072100000000, 31585872311085430000000, 720342242310210000000, 10735533054586350, 348800735481655700000000, 48119074114977120000000, 10187446794575310000000, 559245374417078700000, 7795066735407367000],
   [452053399042336000000000, 410695397909124600000000, 71394687850372850000000, 1692940276874539000000, 8574921291917244000, 1944822342329488000000000, 189824673155996900000000, 16955356359534180000000, 1148195675489342000000, 34612203825798270000],
   [652401072001873300000000, 320787080745661300000000, 54047877434963770000000, 878278806898853200000, 691010602949131500, 1400925542989749000000000, 132635035961665300000000, 13140856838603610000000, 628647434520409600000, 22783998145895100000],
   [689602853559619100000000, 283514154536523200000000, 50350688188881510000000, 802294510966706900000, 9204009547587397, 1107638256703987000000000, 117132616290503000000000, 12349465139179990000000, 573515595790497100000, 7197075418025232000],
   [709374900162630200000000, 252912373903194000000000, 48210781988888900000000, 771936674145111000000, 7271141994250414, 909473795165944700000000, 106391667033161200000000, 11861944662187790000000, 553945708895034700000, 6584947305284627000],
   [643401324797284200000000, 297099970535788800000000, 46079665178784800000000, 724033125775455300000, 6362366643091279, 1025968513072979000000000, 113177452306163300000000, 11277593536238230000000, 527459583353132100000, 6192638240887597000],
   [621070826784019900000000, 303934453825623500000000, 43733998443916280000000, 680714764147316600000, 6182293277428513, 1002141058591628000000000, 110399880155883400000000, 10721897316245390000000, 502432130850682400000, 6005069941971958000],
   [600431598308986500000000, 309431654531418000000000, 41280848771641700000000, 640891657880066900000, 6730073762160754, 981793046719106100000000, 106978705068029400000000, 10163529144864580000000, 479524846888725000000, 6028065987264629000],
   [520061716810304200000000, 349849440367144000000000, 40541493113132030000000, 622343700826529900000, 6008593295434409, 1120383101944067000000000, 112846369546928200000000, 9893334726861316000000, 465917431977950700000, 5725906389623341000],
   [502533860036029100000000, 351843988285154100000000, 38195034944627220000000, 582110208096211000000, 6526093388297119, 1097721906976287000000000, 108477214832630800000000, 9367468748538359000000, 442682346873485600000, 5738568370505115000],
   [534656100260619700000000, 322468466560910800000000, 34946175262544520000000, 529251756748815100000, 6159176302362374, 923118379752449400000000, 97283622919383520000000, 8705962209665623000000, 413011964465032300000, 5494638944496757000],
   [522582350334004700000000, 322818873995295300000000, 32709887882385140000000, 488882575592239000000, 5212722694193633, 907135706618718300000000, 93112427745663480000000, 8207206020598455000000, 389029655993416600000, 5103679766366416000],
   [458641247753547900000000, 351869595665101200000000, 31926171420120540000000, 472979647985625800000, 5513244808062041, 1031861020923352000000000, 95727883782923280000000, 7968074314438807000000, 377193199996848900000, 5097508603760111000],
   [445799480675412600000000, 350867212637662300000000, 30137538052831540000000, 440763746214481900000, 4887879032285916, 1008906933834013000000000, 91944644736162260000000, 7564191777863293000000, 357026465124809300000, 4804951743958113000],
   [433897576401170900000000, 349185098896403400000000, 28147109901628680000000, 400209271499046100000, 5529298081955140, 996330937223836200000000, 87808395698297440000000, 7116371157687776000000, 332152404215077700000, 4851031794603728000],
   [422729470403101200000000, 347249227510661600000000, 26482222949689860000000, 369072877833192900000, 6258714262002473, 972400602040031400000000, 84287377596021040000000, 6735347439748511000000, 312364606263320800000, 4912170970176192000],
   [410951702443020400000000, 345799132522750700000000, 24708735122238670000000, 330423920940995200000, 5991049262319316, 967735994510120200000000, 80694004247081720000000, 6328154369541671000000, 287544639641209200000, 4706791536975981000]]

/-- scattering_factors_LVD_TCB.py:190-198, in `eval_LVD_fit`: the parameters of row `i`. -/
noncomputable def lvdRow (i : ℕ) : Lob :=
  ⟨fun k => (((lvdTable.getD i []).getD k 0 : ℤ) : ℝ) / 10 ^ 23, fun k => (((lvdTable.getD i []).getD (5 + k) 0 : ℤ) : ℝ) / 10 ^ 23⟩

end Verif.Scat
