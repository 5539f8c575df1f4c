import Verif.Lemmas.PolyOn
/-!
Generated by tools/gen_ei.py: the rational approximations of `expi` as integer polynomials, and certificates for their errors.
-/
namespace Verif.EiFit
open Verif.PolyCert

/-- the constant polynomial -/
def one : List ℤ :=
[1]

/-- `e1P` times 62500000000000000000000000 -/
def aP : List ℤ :=
[5407482800496237353112500, 2005710408147244937493750, -15318013539985093509562500, -2300198351612148407137500,
   -249479441300695785600625, -6969237057574866149625]

/-- `e1Q` times 62500000000000000000000000 -/
def aQ : List ℤ :=
[62500000000000000000000000, 23182117287123133259375000, 3548167319012970524000000, 267092250010689811313125,
   8190618799902167707750, -33038189345013571378]

/-- `y - 0.66373538970947265625 + c + sum of the first 20 terms`, times 4320995229435584700000000000000000000000000000000000 -/
def aE : List ℤ :=
[-373851318147187466669295257176550871307077292249179, 0, 1080248807358896175000000000000000000000000000000000,
   -240055290524199150000000000000000000000000000000000, 45010366973287340625000000000000000000000000000000,
   -7201658715725974500000000000000000000000000000000, 1000230377184163125000000000000000000000000000000,
   -122477189042958750000000000000000000000000000000, 13395942551573613281250000000000000000000000000,
   -1323056054476406250000000000000000000000000000, 119075044902876562500000000000000000000000000,
   -9840912801890625000000000000000000000000000, 751736394588867187500000000000000000000000,
   -53377732160156250000000000000000000000000, 3540359786132812500000000000000000000000,
   -220289053359375000000000000000000000000, 12907561720275878906250000000000000000,
   -714605493164062500000000000000000000, 37494732666015625000000000000000000, -1869543457031250000000000000000000,
   88803314208984375000000000000000]

def aQpos : RE :=
(.add (.lit aQ) (.smul (-1) (.lit one)))

theorem aQpos_ok0 : (aQpos.toPE (0) (1001) 1000).ok 154 8 = true := by decide +kernel

def aFitp : RE :=
(.add (.smul (4320995229435584700000000000000000000000000000000000) (.lit aQ)) (.smul (10000000000000000) (.add (.smul
   (4320995229435584700000000000000000000000000000000000) (.lit aP)) (.mul (.lit aQ) (.lit aE)))))

theorem aFitp_ok0 : (aFitp.toPE (0) (1001) 1000).ok 607 29 = true := by decide +kernel

def aFitm : RE :=
(.add (.smul (4320995229435584700000000000000000000000000000000000) (.lit aQ)) (.smul (-10000000000000000) (.add
   (.smul (4320995229435584700000000000000000000000000000000000) (.lit aP)) (.mul (.lit aQ) (.lit aE)))))

theorem aFitm_ok0 : (aFitm.toPE (0) (1001) 1000).ok 607 29 = true := by decide +kernel

/-- `eiP` times 20000000000000000000000000 -/
def bP0 : List ℤ :=
[59735444868719718602600000, 7126872375387548301360000, 15616721525674616036780000, 2293418526540640056220000,
   998869547153030521068000, 145244918668245631912200, 23095647445560861365400, 2328390472195304019980,
   159659273135853940487, 5554112508804017442]

/-- `eiQ` times 20000000000000000000000000 -/
def bQ0 : List ℤ :=
[20000000000000000000000000, -23418082473082782389400000, 12443021969203349255200000, -3902295641389908066300000,
   783046862785934476332000, -100960031732741149469000, 7780680148721308036440, -277945179203563413196]

/-- `eiP` at `x / 3 - 1`, times 131220000000000000000000000000 -/
def bP : List ℤ :=
[438316931350520184908929402665, -45093908561640593838947291646, 9899122394861198238159221976,
   -155156503983240965634025092, 44393048722854188984932938, 1277805585370050009084600, 97207455035322954846432,
   3753193012276251371988, 109672260556617783509, 1851370836268005814]

/-- `eiQ` at `x / 3 - 1`, times 131220000000000000000000000000 -/
def bQ : List ℤ :=
[397960509824712042405676322796, -139304531215395509175599534244, 21855665992601025782815166964,
   -1994890297868148828201604380, 114557109701159349658522260, -4143985957485283392848412, 87536667628316267359308,
   -833835537610690239588]

/-- `c + log r + sum of the first 42 terms`, times 254794050206932993817126909558372676907692354950400000000000000000000000000000000000 -/
def bE : List ℤ :=
[-104537586211267178948379929949664008321475355743004101770383863923749913923664510528,
   254794050206932993817126909558372676907692354950400000000000000000000000000000000000,
   63698512551733248454281727389593169226923088737600000000000000000000000000000000000,
   14155225011496277434284828308798482050427353052800000000000000000000000000000000000,
   2654104689655552018928405307899715384455128697400000000000000000000000000000000000,
   424656750344888323028544849263954461512820591584000000000000000000000000000000000,
   58980104214567822642853451286660341876780637720000000000000000000000000000000000,
   7222053577294019099124912402448205127769057680000000000000000000000000000000000,
   789912110016533338966787294017772435849740683750000000000000000000000000000000,
   78016010865830453231287633977063944281455870000000000000000000000000000000000,
   7021440977924740790815887057935754985331028300000000000000000000000000000000,
   580284378340887668662470004788078924407523000000000000000000000000000000000,
   44327278901040030245049792032422695614463562500000000000000000000000000000,
   3147499093564972561778683457923505014044750000000000000000000000000000000,
   208762694981350220934300433433701863176437500000000000000000000000000000,
   12989678798839569302578693635874782597645000000000000000000000000000000,
   761113992119506013822970330227038042830761718750000000000000000000000,
   42137798871668153014420502711531517942187500000000000000000000000000,
   2210933891414687040880088105234678410546875000000000000000000000000,
   110240471040067497883217689457684796093750000000000000000000000000,
   5236422374403206149452840249240027814453125000000000000000000000,
   237479472762050165508065317425851601562500000000000000000000000,
   10303861421493912139812751375915048828125000000000000000000000,
   428515975941145684453460359678886718750000000000000000000000,
   17110880983761025594495812973288879394531250000000000000000,
   657057829776423382828639218174292968750000000000000000000,
   24299475953270095518810621973901367187500000000000000000, 866647976385490375156483088232421875000000000000000000,
   29846295105112551185236024722290039062500000000000000, 993693535009692548378845056152343750000000000000000,
   32019013905867871003318340698242187500000000000000, 999552983533856534963111572265625000000000000000,
   30259904774950734945172322988510131835937500000, 889179938290563377635917663574218750000000000,
   25383164328363833444623947143554687500000000, 704512316052547213973236083984375000000000,
   19026181374875889266252517700195312500000, 500323250179351361274719238281250000000,
   12819917075232687234878540039062500000, 320287211610021114349365234375000000, 7807000782994264662265777587890625,
   185770393408548831939697265625000, 4317792590561509132385253906250]

/-- `x - r`, times 125000000000000000000000000000000000000000000000000000000000000000000000000000000000000000000000000000 -/
def bX : List ℤ :=
[-46563426347670829307748983322514891691961187221456756444457179405275015079525231798115756243943617799,
   125000000000000000000000000000000000000000000000000000000000000000000000000000000000000000000000000000]

def bQpos : RE :=
(.add (.lit bQ) (.smul (-1) (.lit one)))

theorem bQpos_ok0 : (bQpos.toPE (0) (6001) 1000).ok 190 10 = true := by decide +kernel

def bFitp : RE :=
(.add (.smul
   (31849256275866624227140863694796584613461544368800000000000000000000000000000000000000000000000000000000000000000000000000000000000000000000000000000000000000000000000000000000000000000)
   (.lit bQ)) (.smul (200000000000000) (.add (.smul
   (254794050206932993817126909558372676907692354950400000000000000000000000000000000000) (.mul (.lit bP) (.lit bX)))
   (.smul (-125000000000000000000000000000000000000000000000000000000000000000000000000000000000000000000000000000)
   (.mul (.lit bQ) (.lit bE))))))

theorem bFitp_ok0 : (bFitp.toPE (0) (3000) 1000).ok 1323 53 = true := by decide +kernel

theorem bFitp_ok1 : (bFitp.toPE (3000) (6001) 1000).ok 1327 53 = true := by decide +kernel

def bFitm : RE :=
(.add (.smul
   (31849256275866624227140863694796584613461544368800000000000000000000000000000000000000000000000000000000000000000000000000000000000000000000000000000000000000000000000000000000000000000)
   (.lit bQ)) (.smul (-200000000000000) (.add (.smul
   (254794050206932993817126909558372676907692354950400000000000000000000000000000000000) (.mul (.lit bP) (.lit bX)))
   (.smul (-125000000000000000000000000000000000000000000000000000000000000000000000000000000000000000000000000000)
   (.mul (.lit bQ) (.lit bE))))))

theorem bFitm_ok0 : (bFitm.toPE (0) (3000) 1000).ok 1323 53 = true := by decide +kernel

theorem bFitm_ok1 : (bFitm.toPE (3000) (6001) 1000).ok 1327 53 = true := by decide +kernel

/-- `w (e1P2 + e1Q2)`, times 500000000000000000000000000000000000000 -/
def cN : List ℤ :=
[0, 499999999999999999939493404671137215931, 22152933040590073890778500000000000000000,
   382943674436684266925650000000000000000000, 3346397380877716498642500000000000000000000,
   16041367218605371799900000000000000000000000, 42937216622461458936650000000000000000000000,
   62752891277843060540050000000000000000000000, 47028170804668433419800000000000000000000000,
   15938940812046634089500000000000000000000000, 1851961447579679942650000000000000000000000,
   21875319336010106190000000000000000000000, -388245642641165498774500000000000000000]

/-- `e1Q2`, times 500000000000000000000000000000000000000 -/
def cQ : List ℤ :=
[500000000000000000000000000000000000000, 22652933040590073296350000000000000000000,
   404596607477275164227500000000000000000000, 3708688122273447733540000000000000000000000,
   19064779724240923573050000000000000000000000, 56528529345798157460000000000000000000000000,
   96052023895113992215500000000000000000000000, 90164749190250909859000000000000000000000000,
   43361170173366737460050000000000000000000000, 9227706236886102475750000000000000000000000,
   614603920912015244525000000000000000000000, -388245642641165498774500000000000000000]

/-- `e1P2`, times 500000000000000000000000000000000000000 -/
def cP : List ℤ :=
[-60506595328862784069, -499999999999999405571500000000000000000, -21652933040590897301850000000000000000000,
   -362290741395731234897500000000000000000000, -3023412505635551773150000000000000000000000,
   -13591312723336698523350000000000000000000000, -33299132617270931675450000000000000000000000,
   -43136578385582476439200000000000000000000000, -27422229361320103370550000000000000000000000,
   -7375744789306422533100000000000000000000000, -592728601576005138335000000000000000000000]

/-- derivative -/
def cN1 : List ℤ :=
[499999999999999999939493404671137215931, 44305866081180147781557000000000000000000,
   1148831023310052800776950000000000000000000, 13385589523510865994570000000000000000000000,
   80206836093026858999500000000000000000000000, 257623299734768753619900000000000000000000000,
   439270238944901423780350000000000000000000000, 376225366437347467358400000000000000000000000,
   143450467308419706805500000000000000000000000, 18519614475796799426500000000000000000000000,
   240628512696111168090000000000000000000000, -4658947711693985985294000000000000000000, 0]

/-- derivative -/
def cQ1 : List ℤ :=
[22652933040590073296350000000000000000000, 809193214954550328455000000000000000000000,
   11126064366820343200620000000000000000000000, 76259118896963694292200000000000000000000000,
   282642646728990787300000000000000000000000000, 576312143370683953293000000000000000000000000,
   631153244331756369013000000000000000000000000, 346889361386933899680400000000000000000000000,
   83049356131974922281750000000000000000000000, 6146039209120152445250000000000000000000000,
   -4270702069052820486519500000000000000000, 0]

/-- the variable -/
def var : List ℤ :=
[0, 1]

def cQpos : RE :=
(.add (.lit cQ) (.smul (-1) (.lit one)))

theorem cQpos_ok0 : (cQpos.toPE (0) (1025) 1024).ok 277 14 = true := by decide +kernel

def cFitp : RE :=
(.add (.mul (.lit cQ) (.lit cQ)) (.smul (1000000000000000) (.add (.mul (.lit var) (.mul (.lit cQ) (.lit cQ))) (.smul
   (-1) (.add (.mul (.lit cN) (.lit cQ)) (.mul (.mul (.lit var) (.lit var)) (.add (.mul (.lit cN1) (.lit cQ)) (.smul
   (-1) (.mul (.lit cN) (.lit cQ1))))))))))

theorem cFitp_ok0 : (cFitp.toPE (0) (256) 1024).ok 638 31 = true := by decide +kernel

theorem cFitp_ok1 : (cFitp.toPE (256) (512) 1024).ok 652 31 = true := by decide +kernel

theorem cFitp_ok2 : (cFitp.toPE (512) (1025) 1024).ok 665 31 = true := by decide +kernel

def cFitm : RE :=
(.add (.mul (.lit cQ) (.lit cQ)) (.smul (-1000000000000000) (.add (.mul (.lit var) (.mul (.lit cQ) (.lit cQ))) (.smul
   (-1) (.add (.mul (.lit cN) (.lit cQ)) (.mul (.mul (.lit var) (.lit var)) (.add (.mul (.lit cN1) (.lit cQ)) (.smul
   (-1) (.mul (.lit cN) (.lit cQ1))))))))))

theorem cFitm_ok0 : (cFitm.toPE (0) (256) 1024).ok 638 31 = true := by decide +kernel

theorem cFitm_ok1 : (cFitm.toPE (256) (512) 1024).ok 652 31 = true := by decide +kernel

theorem cFitm_ok2 : (cFitm.toPE (512) (1025) 1024).ok 665 31 = true := by decide +kernel

/-- numerator of the factor of `exp x / x`, times 13107200000000000000000000000000 -/
def dN : List ℤ :=
[15209311486626328124348563456000, 10852995473021660296041351030000, 4652628266415644356531310440000,
   1421283795939690092416771486000, 307613500757948185075544846000, 50584394879109996990326233000,
   5387437892915008139381643440, 348543043155422045930030603]

/-- its denominator, times 13107200000000000000000000000000 -/
def dQ : List ℤ :=
[13107200000000000000000000000000, 9759956229465992170189619200000, 4313069584538233198818099200000,
   1312405913302648387312025600000, 293406112649715839504220160000, 47885083048976927962693632000,
   5275037316054736391005798400, 345570843977653540339056640]

/-- numerator of the fit, times 13107200000000000000000000000000 -/
def dP : List ℤ :=
[18261486626328124348563456000, -458648743869007455801835520000, -346155280962859628675727360000,
   -99775152521933807735537664000, -32439823183661449606201344000, -4913704703650696485601280000,
   -726251958468453107306332160, -51968429119871976742060032]

/-- derivative -/
def dN1 : List ℤ :=
[10852995473021660296041351030000, 9305256532831288713062620880000, 4263851387819070277250314458000,
   1230454003031792740302179384000, 252921974395549984951631165000, 32324627357490048836289860640,
   2439801302087954321510214221, 0]

/-- derivative -/
def dQ1 : List ℤ :=
[9759956229465992170189619200000, 8626139169076466397636198400000, 3937217739907945161936076800000,
   1173624450598863358016880640000, 239425415244884639813468160000, 31650223896328418346034790400,
   2418995907843574782373396480, 0]

/-- `x` in terms of the variable of the fit -/
def dX : List ℤ :=
[8, 2]

/-- approximation of `exp (-x)`, times 702680110433872696125000000000000000000000000000000 -/
def dT : List ℤ :=
[235722916420974162996556445876971291981504640625, -471445832841948325993112891753942583963009281250,
   471445832841948325993112891753942583963009281250, -314297221894632217328741927835961722642006187500,
   157148610947316108664370963917980861321003093750, -62859444378926443465748385567192344528401237500,
   20953148126308814488582795189064114842800412500, -5986613750373946996737941482589747097942975000,
   1496653437593486749184485370647436774485743750, -332589652798552610929885637921652616552387500,
   66517930559710522185977127584330523310477500, -12094169192674640397450386833514640601905000,
   2015694865445773399575064472252440100317500, -310106902376272830703856072654221553895000,
   44300986053753261529122296093460221985000, -5906798140500434870549639479128029598000,
   738349767562554358818704934891003699750, -86864678536771101037494698222471023500,
   9651630948530122337499410913607891500, -1015961152476854982894674833011357000,
   101596115247685498289467483301135700, -9675820499779571265663569838203400, 879620045434506478696688167109400,
   -76488699603000563364929405835600, 6374058300250046947077450486300, -509924664020003755766196038904,
   39224974155384904289707387608, -2905553641139622539978325008, 207539545795687324284166072,
   -14313072123840505123045936]

def dQpos : RE :=
(.add (.lit dQ) (.smul (-1) (.lit one)))

theorem dQpos_ok0 : (dQpos.toPE (-1024) (1025) 1024).ok 195 10 = true := by decide +kernel

def dFitp : RE :=
(.add (.smul (1405360220867745392250000000000000000000000000000000) (.mul (.lit dX) (.mul (.lit dQ) (.lit dQ))))
   (.smul (100000000000000) (.add (.smul (702680110433872696125000000000000000000000000000000) (.add (.smul (2) (.add
   (.mul (.mul (.lit dN) (.lit dQ)) (.add (.lit dX) (.smul (-1) (.lit one)))) (.smul (-1) (.mul (.lit dX) (.mul (.lit
   dQ) (.lit dQ)))))) (.mul (.lit dX) (.add (.mul (.lit dN1) (.lit dQ)) (.smul (-1) (.mul (.lit dN) (.lit dQ1)))))))
   (.smul (2) (.mul (.mul (.mul (.lit dX) (.lit dX)) (.mul (.lit dQ) (.lit dQ))) (.lit dT))))))

theorem dFitp_ok0 : (dFitp.toPE (-1024) (0) 1024).ok 982 52 = true := by decide +kernel

theorem dFitp_ok1 : (dFitp.toPE (0) (1025) 1024).ok 982 52 = true := by decide +kernel

def dFitm : RE :=
(.add (.smul (1405360220867745392250000000000000000000000000000000) (.mul (.lit dX) (.mul (.lit dQ) (.lit dQ))))
   (.smul (-100000000000000) (.add (.smul (702680110433872696125000000000000000000000000000000) (.add (.smul (2) (.add
   (.mul (.mul (.lit dN) (.lit dQ)) (.add (.lit dX) (.smul (-1) (.lit one)))) (.smul (-1) (.mul (.lit dX) (.mul (.lit
   dQ) (.lit dQ)))))) (.mul (.lit dX) (.add (.mul (.lit dN1) (.lit dQ)) (.smul (-1) (.mul (.lit dN) (.lit dQ1)))))))
   (.smul (2) (.mul (.mul (.mul (.lit dX) (.lit dX)) (.mul (.lit dQ) (.lit dQ))) (.lit dT))))))

theorem dFitm_ok0 : (dFitm.toPE (-1024) (0) 1024).ok 982 52 = true := by decide +kernel

theorem dFitm_ok1 : (dFitm.toPE (0) (1025) 1024).ok 982 52 = true := by decide +kernel

/-- numerator of the factor of `exp x / x`, times 250000000000000000000000000000000000000000 -/
def eN : List ℤ :=
[269508569841011932831372500000000000000000, 523265880970714181537674886117246903870000,
   489753980561246639182454185277230118760000, 285873370024776703575067366240546411690000,
   113609393421295820664563883698320679164000, 31497298273461077546943955923119942532000,
   5954222805804432008069217354255831922300, 703472915354349602533432836110806832370,
   39781717205640314057397237542156416707]

/-- its denominator, times 250000000000000000000000000000000000000000 -/
def eQ : List ℤ :=
[250000000000000000000000000000000000000000, 492543035097652987427500000000000000000000,
   465581162607682893770000000000000000000000, 274003592725843799942500000000000000000000,
   109718321443272217703000000000000000000000, 30634432994921525689000000000000000000000,
   5836461956894232203975000000000000000000, 695426922908259172552500000000000000000,
   39787570291527188882750000000000000000]

/-- numerator of the fit, times 250000000000000000000000000000000000000000 -/
def eP : List ℤ :=
[-2234727735892364168627500000000000000000, -12115193253178351145150000000000000000000,
   -16320261105555922394300000000000000000000, -11961189316182741786375000000000000000000,
   -5651480473094427364900000000000000000000, -1801509092293705164767500000000000000000,
   -389854867589930078335000000000000000000, -52437505665050222087250000000000000000,
   -3466305008729564904650000000000000000]

/-- derivative -/
def eN1 : List ℤ :=
[523265880970714181537674886117246903870000, 979507961122493278364908370554460237520000,
   857620110074330110725202098721639235070000, 454437573685183282658255534793282716656000,
   157486491367305387734719779615599712660000, 35725336834826592048415304125534991533800,
   4924310407480447217734029852775647826590, 318253737645122512459177900337251333656, 0]

/-- derivative -/
def eQ1 : List ℤ :=
[492543035097652987427500000000000000000000, 931162325215365787540000000000000000000000,
   822010778177531399827500000000000000000000, 438873285773088870812000000000000000000000,
   153172164974607628445000000000000000000000, 35018771741365393223850000000000000000000,
   4867988460357814207867500000000000000000, 318300562332217511062000000000000000000, 0]

/-- `x` in terms of the variable of the fit -/
def eX : List ℤ :=
[15, 5]

/-- approximation of `exp (-x)`, times 3436957187605267094036203068786574080413270016000000000000000000000000000000 -/
def eT : List ℤ :=
[1051373179153880198554367094242537316397601278194369464253813740273664,
   -5256865895769400992771835471212686581988006390971847321269068701368320,
   13142164739423502481929588678031716454970015977429618303172671753420800,
   -21903607899039170803215981130052860758283359962382697171954452922368000,
   27379509873798963504019976412566075947854199952978371464943066152960000,
   -27379509873798963504019976412566075947854199952978371464943066152960000,
   22816258228165802920016647010471729956545166627481976220785888460800000,
   -16297327305832716371440462150336949968960833305344268729132777472000000,
   10185829566145447732150288843960593730600520815840167955707985920000000,
   -5658794203414137628972382691089218739222511564355648864282214400000000,
   2829397101707068814486191345544609369611255782177824432141107200000000,
   -1286089591685031279311905157065731531641479900989920196427776000000000,
   535870663202096366379960482110721471517283292079133415178240000000000,
   -206104101231575525530754031581046719814339727722743621222400000000000,
   73608607582705544832412154136088114219407045615265579008000000000000,
   -24536202527568514944137384712029371406469015205088526336000000000000,
   7667563289865160920042932722509178564521567251590164480000000000000,
   -2255165673489753211777333153679170166035755073997107200000000000000,
   626434909302709225493703653799769490565487520554752000000000000000,
   -164851291921765585656237803631518286990917768567040000000000000000,
   41212822980441396414059450907879571747729442141760000000000000000,
   -9812576900105094384299869263780850416126057652800000000000000000,
   2230131113660248723704515741768375094574104012000000000000000000,
   -484811111665271461674894726471385890124805220000000000000000000,
   101002314930264887848936401348205393776001087500000000000000000,
   -20200462986052977569787280269641078755200217500000000000000000,
   3884704420394803378805246205700207452923118750000000000000000,
   -719389707480519144223193741796334713504281250000000000000000,
   128462447764378418611284596749345484554335937500000000000000,
   -22148697890410072174359413232645773199023437500000000000000,
   3691449648401678695726568872107628866503906250000000000000,
   -595395104580915918665575624533488526855468750000000000000,
   93030485090768112291496191333357582321166992187500000000,
   -14095528044055774589620635050508724594116210937500000000, 2072871771184672733767740448604224205017089843750000000,
   -296124538740667533395391492657746315002441406250000000, 41128408158426046304915485091353654861450195312500000,
   -5557892994381898149312903390723466873168945312500000, 731301709787091861751697814568877220153808593750000,
   -93756629459883572019448437765240669250488281250000, 11719578682485446502431054720655083656311035156250,
   -1429216912498225183223299356177449226379394531250, 170144870535502998002773732878267765045166015625,
   -19784287271570116046834154985845088958740234375]

def eQpos : RE :=
(.add (.lit eQ) (.smul (-1) (.lit one)))

theorem eQpos_ok0 : (eQpos.toPE (-1024) (1025) 1024).ok 242 11 = true := by decide +kernel

def eFitp : RE :=
(.add (.smul (17184785938026335470181015343932870402066350080000000000000000000000000000000) (.mul (.lit eX) (.mul
   (.lit eQ) (.lit eQ)))) (.smul (100000000000000) (.add (.smul
   (3436957187605267094036203068786574080413270016000000000000000000000000000000) (.add (.smul (5) (.add (.mul (.mul
   (.lit eN) (.lit eQ)) (.add (.lit eX) (.smul (-1) (.lit one)))) (.smul (-1) (.mul (.lit eX) (.mul (.lit eQ) (.lit
   eQ)))))) (.mul (.lit eX) (.add (.mul (.lit eN1) (.lit eQ)) (.smul (-1) (.mul (.lit eN) (.lit eQ1))))))) (.smul (5)
   (.mul (.mul (.mul (.lit eX) (.lit eX)) (.mul (.lit eQ) (.lit eQ))) (.lit eT))))))

theorem eFitp_ok0 : (eFitp.toPE (-1024) (1025) 1024).ok 1315 68 = true := by decide +kernel

def eFitm : RE :=
(.add (.smul (17184785938026335470181015343932870402066350080000000000000000000000000000000) (.mul (.lit eX) (.mul
   (.lit eQ) (.lit eQ)))) (.smul (-100000000000000) (.add (.smul
   (3436957187605267094036203068786574080413270016000000000000000000000000000000) (.add (.smul (5) (.add (.mul (.mul
   (.lit eN) (.lit eQ)) (.add (.lit eX) (.smul (-1) (.lit one)))) (.smul (-1) (.mul (.lit eX) (.mul (.lit eQ) (.lit
   eQ)))))) (.mul (.lit eX) (.add (.mul (.lit eN1) (.lit eQ)) (.smul (-1) (.mul (.lit eN) (.lit eQ1))))))) (.smul (5)
   (.mul (.mul (.mul (.lit eX) (.lit eX)) (.mul (.lit eQ) (.lit eQ))) (.lit eT))))))

theorem eFitm_ok0 : (eFitm.toPE (-1024) (1025) 1024).ok 1315 68 = true := by decide +kernel

end Verif.EiFit
