/-!
# Tabulated Gauss-Legendre rules, Quadrature/GaussLegendreRule.hpp l.56-689

Generated from the source text: numerators of the printed decimals over the common denominator `10 ^ 44`.  All printed
decimals have at most 44 digits after the point, so nothing is rounded.  (The compiler rounds them to `double`; the model
does not.)
-/

namespace Bembel
namespace GaussTables

/-- Common denominator of the tables. -/
def den : Nat := 10 ^ 44

/-- `GaussLegendreRule<1>`, GaussLegendreRule.hpp l.58-65: `xi_`, `w_`. -/
def rule1 : List Nat × List Nat :=
  ([50000000000000000000000000000000000000000000],
   [100000000000000000000000000000000000000000000])

/-- `GaussLegendreRule<2>`, GaussLegendreRule.hpp l.70-78: `xi_`, `w_`. -/
def rule2 : List Nat × List Nat :=
  ([21132486540518711774542560974902127217620000,
    78867513459481288225457439025097872782380000],
   [50000000000000000000000000000000000000000000,
    50000000000000000000000000000000000000000000])

/-- `GaussLegendreRule<3>`, GaussLegendreRule.hpp l.83-94: `xi_`, `w_`. -/
def rule3 : List Nat × List Nat :=
  ([11270166537925831148207346002176003891670000,
    50000000000000000000000000000000000000000000,
    88729833462074168851792653997823996108330000],
   [27777777777777777777777777777777777777780000,
    44444444444444444444444444444444444444440000,
    27777777777777777777777777777777777777780000])

/-- `GaussLegendreRule<4>`, GaussLegendreRule.hpp l.99-113: `xi_`, `w_`. -/
def rule4 : List Nat × List Nat :=
  ([6943184420297371238802675555359524745214000,
    33000947820757186759866712044837765639970000,
    66999052179242813240133287955162234360030000,
    93056815579702628761197324444640475254790000],
   [17392742256872692868653197461099970361770000,
    32607257743127307131346802538900029638230000,
    32607257743127307131346802538900029638230000,
    17392742256872692868653197461099970361770000])

/-- `GaussLegendreRule<5>`, GaussLegendreRule.hpp l.118-133: `xi_`, `w_`. -/
def rule5 : List Nat × List Nat :=
  ([4691007703066800360118656085030351743717000,
    23076534494715845448184278964989559751640000,
    50000000000000000000000000000000000000000000,
    76923465505284154551815721035010440248360000,
    95308992296933199639881343914969648256280000],
   [11846344252809454375713202035995868132160000,
    23931433524968323402064575741781909645610000,
    28444444444444444444444444444444444444440000,
    23931433524968323402064575741781909645610000,
    11846344252809454375713202035995868132160000])

/-- `GaussLegendreRule<6>`, GaussLegendreRule.hpp l.138-156: `xi_`, `w_`. -/
def rule6 : List Nat × List Nat :=
  ([3376524289842398609384922275300269543262000,
    16939530676686774316930020249004732649680000,
    38069040695840154568474913915964403229070000,
    61930959304159845431525086084035596770930000,
    83060469323313225683069979750995267350320000,
    96623475710157601390615077724699730456740000],
   [8566224618958517252014807108636644676341000,
    18038078652406930378491675691885805583080000,
    23395696728634552369493517199477549740580000,
    23395696728634552369493517199477549740580000,
    18038078652406930378491675691885805583080000,
    8566224618958517252014807108636644676341000])

/-- `GaussLegendreRule<7>`, GaussLegendreRule.hpp l.161-181: `xi_`, `w_`. -/
def rule7 : List Nat × List Nat :=
  ([2544604382862073773690515797607436879961000,
    12923440720030278006806761335960579646290000,
    29707742431130141654669679396151926832630000,
    50000000000000000000000000000000000000000000,
    70292257568869858345330320603848073167370000,
    87076559279969721993193238664039420353710000,
    97455395617137926226309484202392563120040000],
   [6474248308443484663530571633954100916429000,
    13985269574463833395073388571188979124350000,
    19091502525255947247518488774448756693920000,
    20897959183673469387755102040816326530610000,
    19091502525255947247518488774448756693920000,
    13985269574463833395073388571188979124350000,
    6474248308443484663530571633954100916429000])

/-- `GaussLegendreRule<8>`, GaussLegendreRule.hpp l.186-208: `xi_`, `w_`. -/
def rule8 : List Nat × List Nat :=
  ([1985507175123188415821956571526350478588000,
    10166676129318663020422303176208478158140000,
    23723379504183550709113047540537682547900000,
    40828267875217509753026192881990800966660000,
    59171732124782490246973807118009199033340000,
    76276620495816449290886952459462317452100000,
    89833323870681336979577696823791521841860000,
    98014492824876811584178043428473649521410000],
   [5061426814518812957626567715498109505770000,
    11119051722668723527217799721312044221510000,
    15685332293894364366898110099330065663020000,
    18134189168918099148257522463859780609710000,
    18134189168918099148257522463859780609710000,
    15685332293894364366898110099330065663020000,
    11119051722668723527217799721312044221510000,
    5061426814518812957626567715498109505770000])

/-- `GaussLegendreRule<9>`, GaussLegendreRule.hpp l.213-237: `xi_`, `w_`. -/
def rule9 : List Nat × List Nat :=
  ([1591988024618695508221189854816356497530000,
    8198444633668210285028510596513256172795000,
    19331428364970480134564898032926290760710000,
    33787328829809553548073099267833169571400000,
    50000000000000000000000000000000000000000000,
    66212671170190446451926900732166830428600000,
    80668571635029519865435101967073709239290000,
    91801555366331789714971489403486743827210000,
    98408011975381304491778810145183643502470000],
   [4063719418078720598594607905526182533783000,
    9032408034742870202923601562145640475717000,
    13030534820146773115937143470931642488590000,
    15617353852000142003431520329222183279940000,
    16511967750062988158226253464348702443940000,
    15617353852000142003431520329222183279940000,
    13030534820146773115937143470931642488590000,
    9032408034742870202923601562145640475717000,
    4063719418078720598594607905526182533783000])

/-- `GaussLegendreRule<10>`, GaussLegendreRule.hpp l.242-268: `xi_`, `w_`. -/
def rule10 : List Nat × List Nat :=
  ([1304673574141413996101799395777397328587000,
    6746831665550774463395165578825347573623000,
    16029521585048779688283631744256321211540000,
    28330230293537640460036702841710791890000000,
    42556283050918439455758699943514000769120000,
    57443716949081560544241300056485999230880000,
    71669769706462359539963297158289208110000000,
    83970478414951220311716368255743678788460000,
    93253168334449225536604834421174652426380000,
    98695326425858586003898200604222602671410000],
   [3333567215434406879678440494666589642893000,
    7472567457529029657288816982884866620128000,
    10954318125799102199776746711408159622940000,
    13463335965499817754561346078473467642990000,
    14776211235737643508694649732566916471050000,
    14776211235737643508694649732566916471050000,
    13463335965499817754561346078473467642990000,
    10954318125799102199776746711408159622940000,
    7472567457529029657288816982884866620128000,
    3333567215434406879678440494666589642893000])

/-- `GaussLegendreRule<11>`, GaussLegendreRule.hpp l.273-301: `xi_`, `w_`. -/
def rule11 : List Nat × List Nat :=
  ([1088567092697150359803099943857130461429000,
    5646870011595235046242111534803636668416000,
    13492399721297533795329187398442327097520000,
    24045193539659409203713716527069522275990000,
    36522842202382751383423400729956923766020000,
    50000000000000000000000000000000000000000000,
    63477157797617248616576599270043076233980000,
    75954806460340590796286283472930477724010000,
    86507600278702466204670812601557672902480000,
    94353129988404764953757888465196363331580000,
    98911432907302849640196900056142869538570000],
   [2783428355808683324137686022127428936426000,
    6279018473245231231734714961197005009881000,
    9314510546386712571304882071582794584564000,
    11659688229599523995926185242158756971590000,
    13140227225512333109034443494525459768640000,
    13646254338895031535724176416817109457800000,
    13140227225512333109034443494525459768640000,
    11659688229599523995926185242158756971590000,
    9314510546386712571304882071582794584564000,
    6279018473245231231734714961197005009881000,
    2783428355808683324137686022127428936426000])

/-- `GaussLegendreRule<12>`, GaussLegendreRule.hpp l.306-336: `xi_`, `w_`. -/
def rule12 : List Nat × List Nat :=
  ([921968287664037465472545492535958851992200,
    4794137181476257166076706694045190373120000,
    11504866290284765648155308339359096200750000,
    20634102285669127635164879052973285981550000,
    31608425050090990312365423167814121937180000,
    43738329574426554226377931526807343500830000,
    56261670425573445773622068473192656499170000,
    68391574949909009687634576832185878062820000,
    79365897714330872364835120947026714018450000,
    88495133709715234351844691660640903799250000,
    95205862818523742833923293305954809626880000,
    99078031712335962534527454507464041148010000],
   [2358766819325591359730798074250853015851000,
    5346966299765921548012735909699811210729000,
    8003916427167311316732626477167953593601000,
    10158371336153296087453222790489918825330000,
    11674626826917740438042494946243902812970000,
    12457352290670139250028121802147560541520000,
    12457352290670139250028121802147560541520000,
    11674626826917740438042494946243902812970000,
    10158371336153296087453222790489918825330000,
    8003916427167311316732626477167953593601000,
    5346966299765921548012735909699811210729000,
    2358766819325591359730798074250853015851000])

/-- `GaussLegendreRule<13>`, GaussLegendreRule.hpp l.341-373: `xi_`, `w_`. -/
def rule13 : List Nat × List Nat :=
  ([790847264070592526358527559644519446750500,
    4120080038851101739672608174964024380476000,
    9921095463334504360289675520857005484719000,
    17882533027982988967800769650224217496420000,
    27575362448177657356104357393618006609900000,
    38477084202243260296723593945100558239420000,
    50000000000000000000000000000000000000000000,
    61522915797756739703276406054899441760580000,
    72424637551822342643895642606381993390100000,
    82117466972017011032199230349775782503580000,
    90078904536665495639710324479142994515280000,
    95879919961148898260327391825035975619520000,
    99209152735929407473641472440355480553250000],
   [2024200238265793976001079610049303002099000,
    4606074991886422395721088797689856046184000,
    6943675510989361923180088843443573381093000,
    8907299038097286914002334599804899775641000,
    10390802376844425115626160965302638169330000,
    11314159013144861920604509301988830921740000,
    11627577661543695509729475763441797407830000,
    11314159013144861920604509301988830921740000,
    10390802376844425115626160965302638169330000,
    8907299038097286914002334599804899775641000,
    6943675510989361923180088843443573381093000,
    4606074991886422395721088797689856046184000,
    2024200238265793976001079610049303002099000])

/-- `GaussLegendreRule<14>`, GaussLegendreRule.hpp l.378-412: `xi_`, `w_`. -/
def rule14 : List Nat × List Nat :=
  ([685809565159383057920136664797359916195400,
    3578255816821324133180443031106286776148000,
    8639934246511750340510262867480251948015000,
    15635354759415726492599009849033293123080000,
    24237568182092295401735464072440566884560000,
    34044381553605511978216408791576226658290000,
    44597252564632816896687767489008262619400000,
    55402747435367183103312232510991737380600000,
    65955618446394488021783591208423773341710000,
    75762431817907704598264535927559433115440000,
    84364645240584273507400990150966706876920000,
    91360065753488249659489737132519748051990000,
    96421744183178675866819556968893713223850000,
    99314190434840616942079863335202640083800000],
   [1755973016587593151591643806909589030985000,
    4007904357988010490281663853142715479185000,
    6075928534395159234470740453623831297833000,
    7860158357909676728480096931192107830283000,
    9276919873896890687085829506257851812446000,
    10259923186064780198296203283060902785520000,
    10763192673157889509793822165813001763750000,
    10763192673157889509793822165813001763750000,
    10259923186064780198296203283060902785520000,
    9276919873896890687085829506257851812446000,
    7860158357909676728480096931192107830283000,
    6075928534395159234470740453623831297833000,
    4007904357988010490281663853142715479185000,
    1755973016587593151591643806909589030985000])

/-- `GaussLegendreRule<15>`, GaussLegendreRule.hpp l.417-453: `xi_`, `w_`. -/
def rule15 : List Nat × List Nat :=
  ([600374098975728575521714070669370942651400,
    3136330379964704784612052614489526437800000,
    7589670829478639189967583961289157431687000,
    13779113431991497629190697269303099518460000,
    21451391369573057623138663137304467938080000,
    30292432646121831505139631450947726581860000,
    39940295300128273884968584830270189609360000,
    50000000000000000000000000000000000000000000,
    60059704699871726115031415169729810390640000,
    69707567353878168494860368549052273418140000,
    78548608630426942376861336862695532061920000,
    86220886568008502370809302730696900481540000,
    92410329170521360810032416038710842568310000,
    96863669620035295215387947385510473562200000,
    99399625901024271424478285929330629057350000],
   [1537662099805863417731419678860220886087000,
    3518302374405406235463370822533366923335000,
    5357961023358596750593477334293465170777000,
    6978533896307715722390239725551416126043000,
    8313460290849696677660043024060440556545000,
    9308050000778110551340028093321141225311000,
    9921574266355578822805916322191966240935000,
    10128912096278063644031009998375965741930000,
    9921574266355578822805916322191966240935000,
    9308050000778110551340028093321141225311000,
    8313460290849696677660043024060440556545000,
    6978533896307715722390239725551416126043000,
    5357961023358596750593477334293465170777000,
    3518302374405406235463370822533366923335000,
    1537662099805863417731419678860220886087000])

/-- `GaussLegendreRule<16>`, GaussLegendreRule.hpp l.458-496: `xi_`, `w_`. -/
def rule16 : List Nat × List Nat :=
  ([529953250417503370192291327483368628686300,
    2771248846338371196100579223269582745443000,
    6718439880608412805976605114380343380633000,
    12229779582249848305244940257627886582310000,
    19106187779867812577666411797560449050410000,
    27099161117138630682879027850821121323000000,
    35919822461037054338476974926975194675700000,
    45249374508118127990734033228752096843480000,
    54750625491881872009265966771247903156520000,
    64080177538962945661523025073024805324300000,
    72900838882861369317120972149178878677000000,
    80893812220132187422333588202439550949590000,
    87770220417750151694755059742372113417690000,
    93281560119391587194023394885619656619370000,
    97228751153661628803899420776730417254560000,
    99470046749582496629807708672516631371310000],
   [1357622970587704742589028622800905175613000,
    3112676196932394643142191849718884713749000,
    4757925584124639240496255380112311317763000,
    6231448562776693602623814109600821007244000,
    7479799440828836604075086527373927448525000,
    8457825969750126909465603951517998110582000,
    9130170752246179443338183398460996969178000,
    9472530522753424814269836160414155257345000,
    9472530522753424814269836160414155257345000,
    9130170752246179443338183398460996969178000,
    8457825969750126909465603951517998110582000,
    7479799440828836604075086527373927448525000,
    6231448562776693602623814109600821007244000,
    4757925584124639240496255380112311317763000,
    3112676196932394643142191849718884713749000,
    1357622970587704742589028622800905175613000])

/-- `GaussLegendreRule<17>`, GaussLegendreRule.hpp l.501-541: `xi_`, `w_`. -/
def rule17 : List Nat × List Nat :=
  ([471226234279133216228299002966736174610500,
    2466223911561611938864152105209848927831000,
    5988042313650704893852215275592215368829000,
    10924299805159929653738497223976197488800000,
    17116442039165461707484889167849883242610000,
    24365473145676151605687671568522406270850000,
    32438411827306184235140724145232699747970000,
    41075790925207607207466125317296722126230000,
    50000000000000000000000000000000000000000000,
    58924209074792392792533874682703277873770000,
    67561588172693815764859275854767300252030000,
    75634526854323848394312328431477593729150000,
    82883557960834538292515110832150116757390000,
    89075700194840070346261502776023802511200000,
    94011957686349295106147784724407784631170000,
    97533776088438388061135847894790151072170000,
    99528773765720866783771700997033263825390000],
   [1207415143427396598005501314378266234585000,
    2772976468699360056472008267912233025642000,
    4251807415858959044176768509553103692525000,
    5594192359670198554739419281317796336792000,
    6756818423426273664315999085117509868606000,
    7702288053840514404071579740097930597024000,
    8400205107822502225498533189416157751060000,
    8828135268349632316263549505659861957546000,
    8972323517810326272913282213094281072439000,
    8828135268349632316263549505659861957546000,
    8400205107822502225498533189416157751060000,
    7702288053840514404071579740097930597024000,
    6756818423426273664315999085117509868606000,
    5594192359670198554739419281317796336792000,
    4251807415858959044176768509553103692525000,
    2772976468699360056472008267912233025642000,
    1207415143427396598005501314378266234585000])

/-- `GaussLegendreRule<18>`, GaussLegendreRule.hpp l.546-588: `xi_`, `w_`. -/
def rule18 : List Nat × List Nat :=
  ([421741578953452663499199764692461487371100,
    2208802521430112240940205353511184501358000,
    5369876675122213039696970443642724229605000,
    9814752051373844215879127249270460144835000,
    15415647846982339606255445935557580527390000,
    22011458446302623269606422573733543153620000,
    29412441926857867698203410308347418146050000,
    37405688715424724520551357256104438491860000,
    45761249347913234937886907353210809413330000,
    54238750652086765062113092646789190586670000,
    62594311284575275479448642743895561508140000,
    70587558073142132301796589691652581853950000,
    77988541553697376730393577426266456846380000,
    84584352153017660393744554064442419472610000,
    90185247948626155784120872750729539855160000,
    94630123324877786960303029556357275770390000,
    97791197478569887759059794646488815498640000,
    99578258421046547336500800235307538512630000],
   [1080800676324165515667135513322623469384000,
    2485727444748489822666747310131932084043000,
    3821286512744452826456483880831826280266000,
    5047102205314358278140699246241730353140000,
    6127760335573923009225956340010077761408000,
    7032145733532532560236565187597361404775000,
    7734233756313262246270900191818738609661000,
    8213824187291636149302688823296379520617000,
    8457119148157179592032823506749330516705000,
    8457119148157179592032823506749330516705000,
    8213824187291636149302688823296379520617000,
    7734233756313262246270900191818738609661000,
    7032145733532532560236565187597361404775000,
    6127760335573923009225956340010077761408000,
    5047102205314358278140699246241730353140000,
    3821286512744452826456483880831826280266000,
    2485727444748489822666747310131932084043000,
    1080800676324165515667135513322623469384000])

/-- `GaussLegendreRule<19>`, GaussLegendreRule.hpp l.593-637: `xi_`, `w_`. -/
def rule19 : List Nat × List Nat :=
  ([379657807820779840549116487336975320534200,
    1989592393258498457361057965617423669245000,
    4842204819259104917866953573384375609530000,
    8864267173142858751053875664364304911273000,
    13951691133238531069145206958810918517140000,
    19972734766915948826518091752688036006580000,
    26771462931201952714136642594794881601190000,
    34171795001818508400494133557507754105390000,
    41982067717988731206595194212962822524760000,
    50000000000000000000000000000000000000000000,
    58017932282011268793404805787037177475240000,
    65828204998181491599505866442492245894610000,
    73228537068798047285863357405205118398810000,
    80027265233084051173481908247311963993420000,
    86048308866761468930854793041189081482860000,
    91135732826857141248946124335635695088730000,
    95157795180740895082133046426615624390470000,
    98010407606741501542638942034382576330750000,
    99620342192179220159450883512663024679470000],
   [973089411486323851815602073221921787645300,
    2240711338284980016641907870099710597588000,
    3452227136882061329035412900300652248092000,
    4574501081122499973223104706191982633046000,
    5578332277366699735801195084088299874067000,
    6437698126966811383775789242843855852792000,
    7130335108680330588787305472095148623783000,
    7638302103292983338942770044883149923050000,
    7948442169697717382497821973252360083939000,
    8052722492439184798958181266045836751995000,
    7948442169697717382497821973252360083939000,
    7638302103292983338942770044883149923050000,
    7130335108680330588787305472095148623783000,
    6437698126966811383775789242843855852792000,
    5578332277366699735801195084088299874067000,
    4574501081122499973223104706191982633046000,
    3452227136882061329035412900300652248092000,
    2240711338284980016641907870099710597588000,
    973089411486323851815602073221921787645300])

/-- `GaussLegendreRule<20>`, GaussLegendreRule.hpp l.642-688: `xi_`, `w_`. -/
def rule20 : List Nat × List Nat :=
  ([343570040745253760693880576433986088867600,
    1801403636104310436616693440136138904397000,
    4388278587433704706612377939835094347541000,
    8044151408889058830273546914923965733519000,
    12683404676992460369284746482217920484460000,
    18197315963674248727358165188685703162830000,
    24456649902458645099781797452237450078730000,
    31314695564229021966372591148753638130210000,
    38610707442917746095975190231571268762850000,
    46173673943325133312267979530058089449760000,
    53826326056674866687732020469941910550240000,
    61389292557082253904024809768428731237150000,
    68685304435770978033627408851246361869790000,
    75543350097541354900218202547762549921270000,
    81802684036325751272641834811314296837170000,
    87316595323007539630715253517782079515540000,
    91955848591110941169726453085076034266480000,
    95611721412566295293387622060164905652460000,
    98198596363895689563383306559863861095600000,
    99656429959254746239306119423566013911130000],
   [880700356957605915593098117592640818107200,
    2030071490019347066551997613746605493955000,
    3133602416705453178475326759352080317580000,
    4163837078835237436237907161102310305009000,
    5096505990862021751837506774017493808335000,
    5909726598075920865618868885569114350252000,
    6584431922458831344924724987408156745806000,
    7104805465919102566464916253358246651726000,
    7458649323630187339391436850098471834634000,
    7637669356536292534904216597754879674597000,
    7637669356536292534904216597754879674597000,
    7458649323630187339391436850098471834634000,
    7104805465919102566464916253358246651726000,
    6584431922458831344924724987408156745806000,
    5909726598075920865618868885569114350252000,
    5096505990862021751837506774017493808335000,
    4163837078835237436237907161102310305009000,
    3133602416705453178475326759352080317580000,
    2030071490019347066551997613746605493955000,
    880700356957605915593098117592640818107200])

/-- The explicit specialisations `GaussLegendreRule<1>` to `GaussLegendreRule<20>`, GaussLegendreRule.hpp l.56-689. -/
def table : Nat → Option (List Nat × List Nat)
  | 1 => some rule1
  | 2 => some rule2
  | 3 => some rule3
  | 4 => some rule4
  | 5 => some rule5
  | 6 => some rule6
  | 7 => some rule7
  | 8 => some rule8
  | 9 => some rule9
  | 10 => some rule10
  | 11 => some rule11
  | 12 => some rule12
  | 13 => some rule13
  | 14 => some rule14
  | 15 => some rule15
  | 16 => some rule16
  | 17 => some rule17
  | 18 => some rule18
  | 19 => some rule19
  | 20 => some rule20
  | _ => none

end GaussTables
end Bembel
